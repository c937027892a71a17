import Verif.Kpm.Density
import Mathlib.Analysis.Matrix.Spectrum

/-! Theorems about `_rescale` (C120), the densities (C121) and `integrate` (C122). -/

set_option linter.unusedSectionVars false

namespace Kwant.Kpm
open Polynomial Finset
open Matrix hiding map_apply

/-! ### C120: rescaling -/

theorem rescale_facts {eps lmin lmax a b : ℝ} (h0 : 0 < eps) (h2 : eps < 2) (h : rescale eps lmin lmax = .ok (a, b)) :
    0 < a ∧ lmin < lmax ∧ a * (2 - eps) = lmax - lmin ∧ 2 * b = lmax + lmin := by
  unfold rescale at h
  rw [if_neg (by linarith)] at h
  by_cases hc : lmax - lmin ≤ |lmax + lmin| * (eps / 2) / 2
  · rw [if_pos hc] at h; cases h
  rw [if_neg hc] at h
  injection h with h
  obtain ⟨rfl, rfl⟩ := Prod.mk.inj h
  have hpos : 0 < lmax - lmin := by
    have : 0 ≤ |lmax + lmin| * (eps / 2) / 2 := by positivity
    linarith
  rw [abs_of_pos hpos]
  refine ⟨div_pos hpos (by linarith), by linarith, ?_, by ring⟩
  rw [div_mul_cancel₀]
  linarith

/-- C120.  If the bounds contain the spectrum and `0 < eps < 2`, then every eigenvalue `x` of the Hamiltonian becomes an eigenvalue `(x - b) / a` of the
rescaled one, which is at least `eps / 2` away from the ends of the interval `[-1, 1]`; and the attribute `bounds = (b - a, b + a)` strictly contains
the spectrum. -/
theorem C120_rescale {d : ℕ} (H : Matrix (Fin d) (Fin d) ℂ) (eps lmin lmax a b : ℝ) (h0 : 0 < eps) (h2 : eps < 2) (h : rescale eps lmin lmax = .ok (a, b))
    (x : ℝ) (v : Vec d) (hv : H.mulVec v = (x : ℂ) • v) (hx : lmin ≤ x ∧ x ≤ lmax) :
    (scaled H a b).mulVec v = (((x - b) / a : ℝ) : ℂ) • v ∧ |(x - b) / a| ≤ 1 - eps / 2 ∧ b - a < x ∧ x < b + a := by
  obtain ⟨ha, hl, e1, e2⟩ := rescale_facts h0 h2 h
  refine ⟨?_, ?_, by nlinarith, by nlinarith⟩
  · unfold scaled
    rw [smul_mulVec, sub_mulVec, smul_mulVec, one_mulVec, hv, ← sub_smul, smul_smul]
    congr 1
    push_cast
    rw [div_eq_inv_mul]
  · rw [abs_div, abs_of_pos ha, div_le_iff₀ ha, abs_le]
    constructor <;> nlinarith [hx.1, hx.2]

/-- C120 (refusals).  The bounds are refused exactly if their distance is at most `eps / 4` times the modulus of their sum. -/
theorem C120_refused (eps lmin lmax : ℝ) (h0 : 0 < eps) (h2 : eps < 2) :
    (∃ e, rescale eps lmin lmax = .error e) ↔ lmax - lmin ≤ eps / 4 * |lmax + lmin| := by
  unfold rescale
  rw [if_neg (by linarith)]
  constructor
  · rintro ⟨e, he⟩
    by_cases hc : lmax - lmin ≤ |lmax + lmin| * (eps / 2) / 2
    · linarith
    · rw [if_neg hc] at he; cases he
  · intro hle
    rw [if_pos (by linarith)]
    exact ⟨_, rfl⟩

/-- C120 (the two spectra of `Correlator`).  `Correlator.__init__` passes `bounds = (b - a (1 - eps / 2), b + a (1 - eps / 2))` to its second
`SpectralDensity` (kpm.py l.579-581): they give the same `a` and `b` again. -/
theorem C120_again (eps lmin lmax a b : ℝ) (h0 : 0 < eps) (h2 : eps < 2) (h : rescale eps lmin lmax = .ok (a, b)) :
    rescale eps (b - a * (1 - eps / 2)) (b + a * (1 - eps / 2)) = .ok (a, b) := by
  obtain ⟨ha, hl, e1, e2⟩ := rescale_facts h0 h2 h
  have d1 : b + a * (1 - eps / 2) = lmax := by linarith
  have d2 : b - a * (1 - eps / 2) = lmin := by linarith
  rw [d1, d2, h]

/-- `eps` is only required to be positive: with `eps = 6` the rescaled levels of a Hamiltonian with the levels -1 and 1 are 2 and -2, outside of the
interval, without any exception. -/
theorem C120_counterexample : ∃ a b : ℝ, rescale 6 (-1) 1 = .ok (a, b) ∧ 1 < |((1 : ℝ) - b) / a| := by
  refine ⟨-(1 / 2), 0, ?_, ?_⟩
  · unfold rescale
    rw [if_neg (by norm_num), if_neg (by norm_num)]
    norm_num
  · norm_num

example : ∃ a b, rescale (1 / 20) (-1) 3 = .ok (a, b) := by
  unfold rescale
  rw [if_neg (by norm_num), if_neg (by norm_num)]
  exact ⟨_, _, rfl⟩

/-! ### C121: densities -/

section
variable {V W : Type} [AddCommGroup V] [Module ℂ V] [AddCommGroup W] [Module ℝ W]

/-- C121 (energies).  The energies are `2 num_moments` points strictly inside of the bounds in ascending order. -/
theorem C121_energies (s : SD V W) (ha : 0 < s.a) :
    (∀ k < 2 * s.numMoments, s.b - s.a < s.energy k ∧ s.energy k < s.b + s.a) ∧
    ∀ k j, k < j → j < 2 * s.numMoments → s.energy k < s.energy j := by
  refine ⟨fun k hk => ?_, fun k j hkj hj => ?_⟩
  · obtain ⟨h1, h2⟩ := node_mem (2 * s.numMoments) k hk
    unfold SD.energy
    constructor <;> nlinarith
  · have := node_lt (2 * s.numMoments) k j hkj hj
    unfold SD.energy
    nlinarith

/-- C121 (densities).  `densities[k]`, calculated by fast Fourier transform, is what `__call__(energies[k])` gives. -/
theorem C121_densities (s : SD V W) (ha : 0 < s.a) (K : Kernel W) (r : Option ℕ) (k : ℕ) (hk : k < 2 * s.numMoments) :
    s.density K r k = s.at K r (s.energy k) := by
  have he : (s.energy k - s.b) / s.a = node (2 * s.numMoments) k := by
    unfold SD.energy; field_simp; ring
  unfold SD.density fftDensity SD.at
  simp only
  rw [he, gammas_eq _ _ _ hk]
  obtain ⟨h1, h2⟩ := node_mem (2 * s.numMoments) k hk
  congr 2
  rw [mul_assoc, ← Real.sqrt_mul (by linarith)]
  congr 2
  ring

end

/-! ### C122: integrals -/

/-- Every polynomial of degree less than `N` is a combination of the first `N` Chebyshev polynomials. -/
theorem exists_cheb (N : ℕ) (p : ℝ[X]) (hp : p.degree < N) : ∃ c : ℕ → ℝ, p = ∑ j ∈ range N, C (c j) * Chebyshev.T ℝ (j : ℤ) := by
  induction N generalizing p with
  | zero =>
    refine ⟨fun _ => 0, ?_⟩
    rw [range_zero, sum_empty]
    exact degree_eq_bot.mp (by simpa using hp)
  | succ N ih =>
    have hdeg : (Chebyshev.T ℝ (N : ℤ)).degree = (N : ℕ) := by rw [Chebyshev.degree_T]; simp
    have hc : (Chebyshev.T ℝ (N : ℤ)).coeff N ≠ 0 := coeff_ne_zero_of_eq_degree hdeg
    set t := p.coeff N / (Chebyshev.T ℝ (N : ℤ)).coeff N with ht
    have hlt : (p - C t * Chebyshev.T ℝ (N : ℤ)).degree < N := by
      rw [degree_lt_iff_coeff_zero]
      intro m hm
      rw [coeff_sub, coeff_C_mul]
      rcases eq_or_lt_of_le hm with rfl | hlt
      · rw [ht, div_mul_cancel₀ _ hc, sub_self]
      · rw [coeff_eq_zero_of_degree_lt (lt_of_lt_of_le hp (by exact_mod_cast hlt)),
          coeff_eq_zero_of_degree_lt (by rw [hdeg]; exact_mod_cast hlt)]
        simp
    obtain ⟨c, hc'⟩ := ih _ hlt
    refine ⟨fun j => if j = N then t else c j, ?_⟩
    rw [sum_range_succ]
    beta_reduce
    rw [if_pos rfl]
    have : ∑ j ∈ range N, C (if j = N then t else c j) * Chebyshev.T ℝ (j : ℤ) = ∑ j ∈ range N, C (c j) * Chebyshev.T ℝ (j : ℤ) :=
      sum_congr rfl fun j hj => by rw [if_neg (by rw [mem_range] at hj; omega)]
    rw [this, ← hc']; ring

section
variable {d : ℕ} {W : Type} [AddCommGroup W] [Module ℝ W]

/-- A real polynomial of the Hamiltonian. -/
noncomputable def polyH (H : Matrix (Fin d) (Fin d) ℂ) (q : ℝ[X]) : Matrix (Fin d) (Fin d) ℂ := aeval H q

theorem chebT_real (H : Matrix (Fin d) (Fin d) ℂ) (a b : ℝ) (n : ℕ) : chebT H a b n = aeval (scaled H a b) (Chebyshev.T ℝ (n : ℤ)) := by
  unfold chebT
  rw [← Chebyshev.map_T (algebraMap ℝ ℂ), aeval_map_algebraMap]

/-- A polynomial of the Hamiltonian in terms of Chebyshev polynomials of the rescaled one. -/
theorem polyH_eq (H : Matrix (Fin d) (Fin d) ℂ) (a b : ℝ) (ha : a ≠ 0) (q : ℝ[X]) (N : ℕ) (c : ℕ → ℝ)
    (hc : q.comp (C a * X + C b) = ∑ j ∈ range N, C (c j) * Chebyshev.T ℝ (j : ℤ)) :
    polyH H q = ∑ j ∈ range N, c j • chebT H a b j := by
  have hs : aeval (scaled H a b) (C a * X + C b : ℝ[X]) = H := by
    rw [map_add, map_mul, aeval_C, aeval_X, aeval_C, Algebra.algebraMap_eq_smul_one, Algebra.algebraMap_eq_smul_one]
    unfold scaled
    have h1 : (a • (1 : Matrix (Fin d) (Fin d) ℂ)) * ((a : ℂ)⁻¹ • (H - (b : ℂ) • (1 : Matrix (Fin d) (Fin d) ℂ))) = H - (b : ℂ) • 1 := by
      rw [smul_mul_assoc, one_mul, ← Complex.coe_smul, smul_smul, mul_inv_cancel₀ (by exact_mod_cast ha), one_smul]
    rw [h1, ← Complex.coe_smul]
    abel
  have := congrArg (aeval (scaled H a b)) hc
  rw [aeval_comp, hs] at this
  unfold polyH
  rw [this, map_sum]
  apply sum_congr rfl
  intro j _
  rw [map_mul, aeval_C, chebT_real, Algebra.algebraMap_eq_smul_one, smul_mul_assoc, one_mul]

/-- The values that the mean is taken of: `L r v`, linear in `v` over the real numbers. -/
def RLin (L : ℕ → Vec d → W) : Prop := ∀ r, (∀ v w, L r (v + w) = L r v + L r w) ∧ ∀ (x : ℝ) v, L r (x • v) = x • L r v

theorem RLin.sum {L : ℕ → Vec d → W} (hL : RLin L) (r : ℕ) (s : Finset ℕ) (c : ℕ → ℝ) (u : ℕ → Vec d) :
    L r (∑ j ∈ s, c j • u j) = ∑ j ∈ s, c j • L r (u j) := by
  have h0 : L r 0 = 0 := by have := (hL r).2 0 0; simpa using this
  induction s using Finset.induction_on with
  | empty => simp [h0]
  | insert j s hj ih => rw [sum_insert hj, sum_insert hj, (hL r).1, (hL r).2, ih]

/-- What one vector, or the mean over the vectors, contributes. -/
noncomputable def avg (nv : ℕ) (r : Option ℕ) (g : ℕ → W) : W :=
  match r with
  | none => (nv : ℝ)⁻¹ • ∑ r ∈ range nv, g r
  | some r => g r

theorem avg_sum (nv : ℕ) (r : Option ℕ) (s : Finset ℕ) (c : ℕ → ℝ) (g : ℕ → ℕ → W) :
    avg nv r (fun i => ∑ j ∈ s, c j • g i j) = ∑ j ∈ s, c j • avg nv r (fun i => g i j) := by
  cases r with
  | none =>
    unfold avg
    simp only
    rw [sum_comm, smul_sum]
    apply sum_congr rfl
    intro j _
    rw [← smul_sum, smul_comm]
  | some r => rfl

theorem raw_eq (s : SD (Vec d) W) (mu : ℕ → ℕ → W) (hm : s.moments = (List.range s.numVectors).map fun r => (List.range s.numMoments).map fun n => mu r n)
    (r : Option ℕ) (hr : ∀ i, r = some i → i < s.numVectors) (n : ℕ) (hn : n < s.numMoments) : s.raw r n = avg s.numVectors r fun i => mu i n := by
  cases r with
  | none =>
    unfold SD.raw avg
    simp only
    congr 1
    have hl : (s.moments.map fun l => l.getD n 0) = (List.range s.numVectors).map fun r => mu r n := by
      rw [hm, List.map_map]
      apply List.map_congr_left
      intro r _
      simp only [Function.comp_apply]
      rw [List.getD_eq_getElem?_getD, List.getElem?_map, List.getElem?_range hn]; rfl
    rw [hl]
    rfl
  | some i =>
    unfold SD.raw avg
    simp only
    have hi := hr i rfl
    have h1 : s.moments.getD i [] = (List.range s.numMoments).map fun n => mu i n := by
      conv_lhs => rw [hm]
      rw [List.getD_eq_getElem?_getD, List.getElem?_map, List.getElem?_range hi]; rfl
    rw [h1, List.getD_eq_getElem?_getD, List.getElem?_map, List.getElem?_range hn]; rfl

/-- A kernel that multiplies moment `n` of `N` with `g N n`. -/
def Diag (K : Kernel W) (g : ℕ → ℕ → ℝ) : Prop := ∀ N m n, K N m n = g N n • m n

/-- Integrals of Chebyshev polynomials and of polynomials, for a diagonal kernel. -/
theorem integrate_cheb (s : SD (Vec d) W) (hN : 0 < s.numMoments) (ha : s.a ≠ 0) (K : Kernel W) (g : ℕ → ℕ → ℝ) (hK : Diag K g) (r : Option ℕ) (q : ℝ[X]) (c : ℕ → ℝ)
    (hc : q.comp (C s.a * X + C s.b) = ∑ j ∈ range s.numMoments, C (c j) * Chebyshev.T ℝ (j : ℤ)) :
    s.integrate K r (some fun E => q.eval E) = ∑ j ∈ range s.numMoments, c j • (g s.numMoments j • s.raw r j) := by
  unfold SD.integrate
  simp only
  have he : ∀ k, q.eval (s.energy k) = ∑ j ∈ range s.numMoments, c j * (Chebyshev.T ℝ (j : ℤ)).eval (node (2 * s.numMoments) k) := by
    intro k
    have := congrArg (eval (node (2 * s.numMoments) k)) hc
    rw [eval_comp, eval_finsetSum] at this
    simp only [eval_add, eval_mul, eval_C, eval_X] at this
    rw [← this]; rfl
  have h1 : ∑ k ∈ range (2 * s.numMoments), q.eval (s.energy k) • gammas s.numMoments (s.stab K r) k
      = ∑ j ∈ range s.numMoments, c j • ((2 * s.numMoments : ℝ) • s.stab K r j) := by
    have h2 : ∀ k ∈ range (2 * s.numMoments), q.eval (s.energy k) • gammas s.numMoments (s.stab K r) k
        = ∑ j ∈ range s.numMoments, c j • ((Chebyshev.T ℝ (j : ℤ)).eval (node (2 * s.numMoments) k) • gammas s.numMoments (s.stab K r) k) := by
      intro k _
      rw [he k, sum_smul]
      exact sum_congr rfl fun j _ => by rw [mul_smul]
    rw [sum_congr rfl h2, sum_comm]
    apply sum_congr rfl
    intro j hj
    rw [mem_range] at hj
    rw [← smul_sum, sum_gammas_T s.numMoments (s.stab K r) j (by omega), if_pos hj]
  rw [h1, smul_sum]
  apply sum_congr rfl
  intro j _
  unfold SD.stab
  have hN' : (s.numMoments : ℝ) ≠ 0 := by positivity
  rw [hK]
  simp only [smul_smul]
  congr 1
  field_simp

/-- Without a kernel, integrals of polynomials of degree less than the number of moments are exact. -/
theorem integrate_exact (H : Matrix (Fin d) (Fin d) ℂ) (s : SD (Vec d) W) (hN : 0 < s.numMoments) (ha : s.a ≠ 0) (src : ℕ → Vec d) (L : ℕ → Vec d → W) (hL : RLin L)
    (hm : s.moments = (List.range s.numVectors).map fun r => (List.range s.numMoments).map fun n => L r ((chebT H s.a s.b n).mulVec (src r)))
    (r : Option ℕ) (hr : ∀ i, r = some i → i < s.numVectors) (q : ℝ[X]) (hq : q.degree < s.numMoments) :
    s.integrate noKernel r (some fun E => q.eval E) = avg s.numVectors r fun i => L i ((polyH H q).mulVec (src i)) := by
  have hdeg : (q.comp (C s.a * X + C s.b)).degree < s.numMoments := by
    by_cases h0 : q = 0
    · subst h0; rw [zero_comp, degree_zero]; exact WithBot.bot_lt_coe _
    · refine lt_of_le_of_lt degree_le_natDegree ?_
      rw [natDegree_comp, natDegree_linear ha, mul_one]
      rw [degree_eq_natDegree h0] at hq
      exact hq
  obtain ⟨c, hc⟩ := exists_cheb s.numMoments _ hdeg
  rw [integrate_cheb s hN ha noKernel (fun _ _ => 1) (fun N m n => by rw [one_smul]; rfl) r q c hc]
  have h1 : ∀ i, L i ((polyH H q).mulVec (src i)) = ∑ j ∈ range s.numMoments, c j • L i ((chebT H s.a s.b j).mulVec (src i)) := by
    intro i
    rw [polyH_eq H s.a s.b ha q s.numMoments c hc, sum_mulVec, ← hL.sum]
    congr 1
    exact sum_congr rfl fun j _ => by rw [smul_mulVec]
  simp only [h1]
  rw [avg_sum]
  apply sum_congr rfl
  intro j hj
  rw [one_smul, raw_eq s _ hm r hr j (mem_range.mp hj)]

end
end Kwant.Kpm
