import Verif.Kpm.DensThm
import Mathlib.Analysis.SpecialFunctions.Arsinh

/-! Integrals of the spectral density (C122). -/

set_option linter.unusedSectionVars false

namespace Kwant.Kpm
open Polynomial Finset
open Matrix hiding map_apply

section
variable {d : ℕ} {W : Type} [AddCommGroup W] [Module ℝ W]

/-- What is known of reachable objects. -/
theorem reachable_facts (H : Matrix (Fin d) (Fin d) ℂ) (kind : OpKind (Vec d) W) (hk : ∀ a b v, KindOk kind (rescaled (fun v => H.mulVec v) a b) v)
    (src : ℕ → Vec d) (len : Option ℕ) (acc : Bool) (a b : ℝ) (s : SD (Vec d) W) (hs : Reachable H kind src len acc a b s) :
    s.a = a ∧ s.b = b ∧ 2 ≤ s.numMoments ∧ 0 < s.numVectors ∧
    s.moments = (List.range s.numVectors).map fun r => (List.range s.numMoments).map fun n => kind.val (src r) ((chebT H s.a s.b n).mulVec (src r)) := by
  obtain ⟨N, nv, _, h0, _, G⟩ := kindOk_of H kind hk src len acc a b s hs
  refine ⟨G.inv.a, G.inv.b, by rw [G.num]; exact G.two, by rw [G.numVectors]; exact h0, ?_⟩
  rw [G.inv.a, G.inv.b, G.numVectors, G.num, G.moments]
  refine List.map_congr_left fun r _ => List.map_congr_left fun n _ => ?_
  rw [← cheb_eq]; rfl

theorem vdot_add (u v w : Vec d) : vdot u (v + w) = vdot u v + vdot u w := by
  rw [vdot_eq, vdot_eq, vdot_eq, dotProduct_add]

theorem vdot_rsmul (u v : Vec d) (x : ℝ) : vdot u (x • v) = x • vdot u v := by
  rw [vdot_eq, vdot_eq, dotProduct_smul]

/-- C122 (density of states).  Without a kernel, `integrate(f)` of the density of states is exact for every polynomial `f` of degree less than the
number of moments: with `mean=True` it is the mean over the vectors of `⟨v_r|f(H)|v_r⟩`, with `mean=False` entry `r` is `⟨v_r|f(H)|v_r⟩`. -/
theorem C122_integrate_dos (H : Matrix (Fin d) (Fin d) ℂ) (hH : H.IsHermitian) (src : ℕ → Vec d) (len : Option ℕ) (acc : Bool) (a b : ℝ) (ha : a ≠ 0)
    (s : SD (Vec d) ℂ) (hs : Reachable H (.dos vdot) src len acc a b s) (q : ℝ[X]) (hq : q.degree < s.numMoments) :
    s.integrate noKernel none (some fun E => q.eval E) = (s.numVectors : ℝ)⁻¹ • ∑ r ∈ range s.numVectors, vdot (src r) ((aeval H q).mulVec (src r)) ∧
    ∀ r < s.numVectors, s.integrate noKernel (some r) (some fun E => q.eval E) = vdot (src r) ((aeval H q).mulVec (src r)) := by
  obtain ⟨h1, h2, h3, h4, hm⟩ := reachable_facts H _ (dos_ok H hH) src len acc a b s hs
  have hL : RLin (d := d) (W := ℂ) fun r v => vdot (src r) v := fun r => ⟨vdot_add _, fun x v => vdot_rsmul _ v x⟩
  refine ⟨?_, fun r hr => ?_⟩
  · exact integrate_exact H s (by omega) (by rw [h1]; exact ha) src _ hL hm none (fun i hi => by cases hi) q hq
  · exact integrate_exact H s (by omega) (by rw [h1]; exact ha) src _ hL hm (some r) (fun i hi => by injection hi with hi; omega) q hq

/-- C122 (with an operator).  The same for an operator that is linear in the second wave function, as kwant's are, for any matrix `H`. -/
theorem C122_integrate_op (H : Matrix (Fin d) (Fin d) ℂ) (f : Vec d → Vec d → W) (hadd : ∀ u v w, f u (v + w) = f u v + f u w)
    (hsmul : ∀ u (x : ℝ) v, f u (x • v) = x • f u v) (src : ℕ → Vec d) (len : Option ℕ) (acc : Bool) (a b : ℝ) (ha : a ≠ 0)
    (s : SD (Vec d) W) (hs : Reachable H (.op f) src len acc a b s) (q : ℝ[X]) (hq : q.degree < s.numMoments) :
    s.integrate noKernel none (some fun E => q.eval E) = (s.numVectors : ℝ)⁻¹ • ∑ r ∈ range s.numVectors, f (src r) ((aeval H q).mulVec (src r)) ∧
    ∀ r < s.numVectors, s.integrate noKernel (some r) (some fun E => q.eval E) = f (src r) ((aeval H q).mulVec (src r)) := by
  obtain ⟨h1, h2, h3, h4, hm⟩ := reachable_facts H (.op f) (fun _ _ _ => trivial) src len acc a b s hs
  have hL : RLin fun r v => f (src r) v := fun r => ⟨hadd _, fun x v => hsmul _ x v⟩
  refine ⟨?_, fun r hr => ?_⟩
  · exact integrate_exact H s (by omega) (by rw [h1]; exact ha) src _ hL hm none (fun i hi => by cases hi) q hq
  · exact integrate_exact H s (by omega) (by rw [h1]; exact ha) src _ hL hm (some r) (fun i hi => by injection hi with hi; omega) q hq

theorem vdot_single (A : Matrix (Fin d) (Fin d) ℂ) (i : Fin d) : vdot (Pi.single i (1 : ℂ) : Vec d) (A.mulVec (Pi.single i 1)) = A i i := by
  rw [vdot_eq, mulVec_single_one]
  have : star (Pi.single i (1 : ℂ) : Vec d) = Pi.single i (1 : ℂ) := by
    ext j
    by_cases h : j = i
    · subst h; simp
    · simp [h]
  rw [this, single_one_dotProduct, col_apply]

/-- C122 (all orbitals).  With the unit vectors of all orbitals, as from `LocalVectors(syst)`, the result is the trace of `f(H)` divided by the number
of orbitals. -/
theorem C122_trace (H : Matrix (Fin d) (Fin d) ℂ) (hH : H.IsHermitian) (src : ℕ → Vec d) (hsrc : ∀ i : Fin d, src i = Pi.single i 1) (len : Option ℕ) (acc : Bool)
    (a b : ℝ) (ha : a ≠ 0) (s : SD (Vec d) ℂ) (hs : Reachable H (.dos vdot) src len acc a b s) (hd : s.numVectors = d) (q : ℝ[X]) (hq : q.degree < s.numMoments) :
    s.integrate noKernel none (some fun E => q.eval E) = (d : ℂ)⁻¹ * (aeval H q).trace := by
  rw [(C122_integrate_dos H hH src len acc a b ha s hs q hq).1, hd, Finset.sum_range, ← Complex.coe_smul, smul_eq_mul]
  congr 1
  · push_cast; rfl
  · apply sum_congr rfl
    intro i _
    rw [hsrc i, vdot_single]; rfl

/-- The factor that kernels apply to moment 0. -/
theorem jacksonArr_zero (N : ℕ) : jacksonArr N 0 = 1 := by
  unfold jacksonArr
  have : (N : ℝ) + 1 ≠ 0 := by positivity
  simp [this]

theorem lorentzArr_zero (l : ℝ) (hl : l ≠ 0) (N : ℕ) : lorentzArr l N 0 = 1 := by
  unfold lorentzArr
  have : Real.sinh l ≠ 0 := by exact fun h => hl (Real.sinh_injective (by rw [h, Real.sinh_zero]))
  simp [this]

theorem integrate_none (s : SD (Vec d) W) (hN : 0 < s.numMoments) (ha : s.a ≠ 0) (K : Kernel W) (g : ℕ → ℕ → ℝ) (hK : Diag K g) (r : Option ℕ) :
    s.integrate K r none = g s.numMoments 0 • s.raw r 0 := by
  unfold SD.integrate
  simp only
  have h := sum_gammas_T s.numMoments (s.stab K r) 0 (by omega)
  simp only [Nat.cast_zero, Chebyshev.T_zero, eval_one, if_pos hN] at h
  have hN' : (s.numMoments : ℝ) ≠ 0 := by positivity
  rw [h]
  unfold SD.stab
  rw [hK]
  simp only [smul_smul]
  congr 1
  field_simp

/-- C122 (total).  `integrate()`, the integral over the whole spectrum, is the mean of `⟨v_r|v_r⟩`, with the Jackson kernel and with the Lorentz
kernel: kernels do not change it. -/
theorem C122_total (H : Matrix (Fin d) (Fin d) ℂ) (hH : H.IsHermitian) (src : ℕ → Vec d) (len : Option ℕ) (acc : Bool) (a b : ℝ) (ha : a ≠ 0)
    (s : SD (Vec d) ℂ) (hs : Reachable H (.dos vdot) src len acc a b s) (l : ℝ) (hl : l ≠ 0) :
    s.integrate jackson none none = (s.numVectors : ℝ)⁻¹ • ∑ r ∈ range s.numVectors, vdot (src r) (src r) ∧
    s.integrate (lorentz l) none none = (s.numVectors : ℝ)⁻¹ • ∑ r ∈ range s.numVectors, vdot (src r) (src r) := by
  obtain ⟨h1, h2, h3, h4, hm⟩ := reachable_facts H _ (dos_ok H hH) src len acc a b s hs
  have h0 : s.raw none 0 = (s.numVectors : ℝ)⁻¹ • ∑ r ∈ range s.numVectors, vdot (src r) (src r) := by
    rw [raw_eq s _ hm none (fun i hi => by cases hi) 0 (by omega)]
    unfold avg
    simp only [chebT_zero, one_mulVec]
    rfl
  constructor
  · rw [integrate_none s (by omega) (by rw [h1]; exact ha) jackson jacksonArr (fun _ _ _ => rfl), jacksonArr_zero, one_smul, h0]
  · rw [integrate_none s (by omega) (by rw [h1]; exact ha) (lorentz l) (lorentzArr l) (fun _ _ _ => rfl), lorentzArr_zero l hl, one_smul, h0]

/-- C122 (kernels).  With a kernel that multiplies moment `j` with `g_j`, the integral of `T_j((E - b) / a)` is multiplied with `g_j` if `j` is less than the
number of moments. -/
theorem C122_kernel (H : Matrix (Fin d) (Fin d) ℂ) (hH : H.IsHermitian) (src : ℕ → Vec d) (len : Option ℕ) (acc : Bool) (a b : ℝ) (ha : a ≠ 0)
    (s : SD (Vec d) ℂ) (hs : Reachable H (.dos vdot) src len acc a b s) (K : Kernel ℂ) (g : ℕ → ℕ → ℝ) (hK : ∀ N m n, K N m n = g N n • m n) (j : ℕ) (hj : j < s.numMoments) :
    s.integrate K none (some fun E => (Chebyshev.T ℝ (j : ℤ)).eval ((E - b) / a)) =
      g s.numMoments j • ((s.numVectors : ℝ)⁻¹ • ∑ r ∈ range s.numVectors, vdot (src r) ((chebT H a b j).mulVec (src r))) := by
  obtain ⟨h1, h2, h3, h4, hm⟩ := reachable_facts H _ (dos_ok H hH) src len acc a b s hs
  subst h1 h2
  have e : (fun E => (Chebyshev.T ℝ (j : ℤ)).eval ((E - s.b) / s.a)) = fun E => ((Chebyshev.T ℝ (j : ℤ)).comp (C s.a⁻¹ * (X - C s.b))).eval E := by
    funext E
    rw [eval_comp]
    simp only [eval_mul, eval_C, eval_sub, eval_X]
    congr 1
    rw [div_eq_inv_mul]
  have hc : ((Chebyshev.T ℝ (j : ℤ)).comp (C s.a⁻¹ * (X - C s.b))).comp (C s.a * X + C s.b)
      = ∑ i ∈ range s.numMoments, C (if i = j then 1 else 0) * Chebyshev.T ℝ (i : ℤ) := by
    rw [comp_assoc]
    have : (C s.a⁻¹ * (X - C s.b)).comp (C s.a * X + C s.b) = X := by
      simp only [mul_comp, sub_comp, C_comp, X_comp, add_sub_cancel_right]
      rw [← mul_assoc, ← C_mul, inv_mul_cancel₀ ha, C_1, one_mul]
    rw [this, comp_X, Finset.sum_eq_single j]
    · rw [if_pos rfl, C_1, one_mul]
    · intro i _ hi; rw [if_neg hi, C_0, zero_mul]
    · intro h; exact absurd (mem_range.mpr hj) h
  rw [e, integrate_cheb s (by omega) ha K g hK none _ _ hc, Finset.sum_eq_single j]
  · rw [if_pos rfl, one_smul, raw_eq s _ hm none (fun i hi => by cases hi) j hj]; rfl
  · intro i _ hi; rw [if_neg hi, zero_smul]
  · intro h; exact absurd (mem_range.mpr hj) h

/-- The hypotheses can be met: for a Hamiltonian with the levels 1 and -1 and the unit vectors, the integral of `E²` is 1, calculated with five moments. -/
theorem C122_example : ∃ s : SD (Vec 2) ℂ, Reachable exH (.dos vdot) (fun r => if r = 0 then ![1, 0] else ![0, 1]) (some 2) true 2 0 s ∧
    s.integrate noKernel none (some fun E => E ^ 2) = 1 := by
  obtain ⟨s, _, h2, h3, h4⟩ := C119_init exH (.dos vdot) (dos_ok exH exH_herm) 1 (-1) 1 2 0 one_pos exRescale 5 2 (by norm_num) (by norm_num)
    (fun r => some (if r = 0 then ![1, 0] else ![0, 1])) (fun r => if r = 0 then ![1, 0] else ![0, 1]) (some 2) true (fun i _ => rfl)
    (fun m hm => by injection hm with h; omega)
  refine ⟨s, h4, ?_⟩
  have := C122_trace exH exH_herm _ (fun i => by fin_cases i <;> ext j <;> fin_cases j <;> simp) (some 2) true 2 0 (by norm_num) s h4 h3 (X ^ 2)
    (by rw [degree_X_pow, h2]; norm_num)
  simp only [eval_pow, eval_X] at this
  rw [this, map_pow, aeval_X]
  have e : exH ^ 2 = 1 := by
    rw [pow_two]; ext i j; fin_cases i <;> fin_cases j <;> simp [exH, Matrix.mul_apply, Fin.sum_univ_two]
  rw [e, trace_one]
  simp

end
end Kwant.Kpm
