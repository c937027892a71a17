import Mathlib.Analysis.Calculus.InverseFunctionTheorem.ContDiff
import Mathlib.Analysis.Calculus.ContDiff.Operations
import Mathlib.Analysis.Calculus.Deriv.Prod
import Mathlib.Analysis.Calculus.Deriv.Mul
import Mathlib.Analysis.Calculus.Deriv.Add
import Mathlib.Analysis.Complex.Basic
import Mathlib.Analysis.Complex.RealDeriv
import Mathlib.LinearAlgebra.Matrix.Hermitian
import Mathlib.Analysis.Matrix.Hermitian
import Mathlib.LinearAlgebra.Complex.FiniteDimensional
import Mathlib.LinearAlgebra.Matrix.ToLin
import Mathlib.LinearAlgebra.FiniteDimensional.Lemmas

/-!
Mathematics needed for C65 and C99: the derivatives of a non-degenerate eigenvalue of a family of Hermitian matrices.
-/

set_option linter.unusedSectionVars false

namespace Kwant.Bands
open Matrix Complex Filter Topology

variable {N : ℕ}

/-- Ascending eigenvalues and orthonormal eigenvectors (the columns). -/
def Diagonalizes (h : Matrix (Fin N) (Fin N) ℂ) (e : Fin N → ℝ) (v : Matrix (Fin N) (Fin N) ℂ) : Prop :=
  Monotone e ∧ vᴴ * v = 1 ∧ h * v = v * diagonal fun n => (e n : ℂ)

/-- `x` is an eigenvalue of `h`. -/
def IsEig (h : Matrix (Fin N) (Fin N) ℂ) (x : ℝ) : Prop := ∃ φ : Fin N → ℂ, φ ≠ 0 ∧ ∀ i, ∑ j, h i j * φ j = x * φ i

theorem twice {F : Type*} [NormedAddCommGroup F] [NormedSpace ℝ F] {f : ℝ → F} {k : ℝ} (hf : ContDiffAt ℝ 2 f k) :
    (∀ᶠ t in 𝓝 k, HasDerivAt f (deriv f t) t) ∧ HasDerivAt (deriv f) (deriv (deriv f) k) k := by
  constructor
  · have h1 : ContDiffAt ℝ 1 f k := hf.of_le (by norm_num)
    filter_upwards [h1.eventually (by simp)] with t ht
    exact (ht.differentiableAt (by norm_num)).hasDerivAt
  · have h1 : ContDiffAt ℝ 1 (fderiv ℝ f) k := hf.fderiv_right (by norm_num)
    have h2 : DifferentiableAt ℝ (fderiv ℝ f) k := h1.differentiableAt (by norm_num)
    have h3 : DifferentiableAt ℝ (fun t => fderiv ℝ f t 1) k := h2.clm_apply (differentiableAt_const _)
    exact h3.hasDerivAt

theorem deriv_zero {f : ℝ → ℂ} {k : ℝ} {c d : ℂ} (h : ∀ᶠ t in 𝓝 k, f t = c) (hd : HasDerivAt f d k) : d = 0 :=
  hd.unique ((hasDerivAt_const k c).congr_of_eventuallyEq h)

/-- The unknowns: the parameter, the eigenvector and the eigenvalue. -/
abbrev P (N : ℕ) := ℝ × (Fin N → ℂ) × ℂ

/-- The equations of an eigenvector whose overlap with `φ` is given. -/
def G (H : ℝ → Matrix (Fin N) (Fin N) ℂ) (φ : Fin N → ℂ) (p : P N) : P N :=
  (p.1, fun i => ∑ j, H p.1 i j * p.2.1 j - p.2.2 * p.2.1 i, ∑ i, (starRingEnd ℂ) (φ i) * p.2.1 i)

theorem G_contDiff {H : ℝ → Matrix (Fin N) (Fin N) ℂ} (hH : ∀ i j, ContDiff ℝ 2 fun t => H t i j) (φ : Fin N → ℂ) : ContDiff ℝ 2 (G H φ) := by
  have ap : ∀ j, ContDiff ℝ 2 fun p : P N => p.2.1 j := fun j => contDiff_pi.mp (contDiff_fst.comp contDiff_snd) j
  have ee : ContDiff ℝ 2 fun p : P N => p.2.2 := contDiff_snd.comp contDiff_snd
  unfold G
  refine contDiff_fst.prodMk (ContDiff.prodMk (contDiff_pi.mpr fun i => ?_) ?_)
  · refine ContDiff.sub (ContDiff.sum fun j _ => ?_) (ee.mul (ap i))
    exact ((hH i j).comp contDiff_fst).mul (ap j)
  · exact ContDiff.sum fun i _ => contDiff_const.mul (ap i)

/-- Overlap of the m-th eigenvector with a vector. -/
def coef (v : Matrix (Fin N) (Fin N) ℂ) (φ : Fin N → ℂ) (m : Fin N) : ℂ := ∑ i, (starRingEnd ℂ) (v i m) * φ i

theorem coef_expand {v : Matrix (Fin N) (Fin N) ℂ} (hv : vᴴ * v = 1) (φ : Fin N → ℂ) (i : Fin N) : φ i = ∑ m, v i m * coef v φ m := by
  have h : v *ᵥ (vᴴ *ᵥ φ) = φ := by rw [Matrix.mulVec_mulVec, mul_eq_one_comm.mp hv, Matrix.one_mulVec]
  exact (congrFun h i).symm

theorem coef_col {v : Matrix (Fin N) (Fin N) ℂ} (hv : vᴴ * v = 1) (n m : Fin N) : coef v (fun i => v i n) m = if m = n then 1 else 0 := by
  have h := congrFun (congrFun hv m) n
  rw [Matrix.mul_apply, Matrix.one_apply] at h
  exact h

theorem coef_eig {h : Matrix (Fin N) (Fin N) ℂ} {e : Fin N → ℝ} {v : Matrix (Fin N) (Fin N) ℂ} (hh : h.IsHermitian) (hd : Diagonalizes h e v)
    (φ : Fin N → ℂ) (m : Fin N) : coef v (fun i => ∑ j, h i j * φ j) m = e m * coef v φ m := by
  have h1 : vᴴ * h = (diagonal fun n => (e n : ℂ)) * vᴴ := by
    have := congrArg conjTranspose hd.2.2
    rw [conjTranspose_mul, conjTranspose_mul, hh.eq, diagonal_conjTranspose] at this
    rw [this]
    congr 2
    funext n
    simp
  have h2 : vᴴ *ᵥ (h *ᵥ φ) = (diagonal fun n => (e n : ℂ)) *ᵥ (vᴴ *ᵥ φ) := by rw [Matrix.mulVec_mulVec, h1, ← Matrix.mulVec_mulVec]
  have h3 := congrFun h2 m
  rw [Matrix.mulVec_diagonal] at h3
  exact h3

theorem coef_add (v : Matrix (Fin N) (Fin N) ℂ) (φ χ : Fin N → ℂ) (m : Fin N) : coef v (fun i => φ i + χ i) m = coef v φ m + coef v χ m := by
  unfold coef
  rw [← Finset.sum_add_distrib]
  exact Finset.sum_congr rfl fun i _ => by ring

theorem coef_smul (v : Matrix (Fin N) (Fin N) ℂ) (c : ℂ) (φ : Fin N → ℂ) (m : Fin N) : coef v (fun i => c * φ i) m = c * coef v φ m := by
  unfold coef
  rw [Finset.mul_sum]
  exact Finset.sum_congr rfl fun i _ => by ring

theorem coef_zero {v : Matrix (Fin N) (Fin N) ℂ} (hv : vᴴ * v = 1) {φ : Fin N → ℂ} (h : ∀ m, coef v φ m = 0) : φ = 0 := by
  funext i
  rw [coef_expand hv φ i]
  simp [h]

theorem col_eig {h : Matrix (Fin N) (Fin N) ℂ} {e : Fin N → ℝ} {v : Matrix (Fin N) (Fin N) ℂ} (hd : Diagonalizes h e v) (n i : Fin N) :
    ∑ j, h i j * v j n = e n * v i n := by
  have := congrFun (congrFun hd.2.2 i) n
  rw [Matrix.mul_apply, Matrix.mul_diagonal] at this
  rw [this, mul_comm]

section
variable {H : ℝ → Matrix (Fin N) (Fin N) ℂ} {k : ℝ} {e : Fin N → ℝ} {v : Matrix (Fin N) (Fin N) ℂ} {n : Fin N}

theorem G_base (hd : Diagonalizes (H k) e v) : G H (fun i => v i n) (k, fun i => v i n, (e n : ℂ)) = (k, 0, 1) := by
  unfold G
  refine Prod.ext rfl (Prod.ext ?_ ?_)
  · funext i
    show ∑ j, H k i j * v j n - e n * v i n = 0
    rw [col_eig hd, sub_self]
  · have := coef_col hd.2.1 n n
    rw [if_pos rfl] at this
    exact this

theorem G_inj (hH : ∀ i j, ContDiff ℝ 2 fun t => H t i j) (hherm : (H k).IsHermitian) (hd : Diagonalizes (H k) e v) (hn : ∀ m, m ≠ n → e m ≠ e n)
    (w : P N) (hw : fderiv ℝ (G H fun i => v i n) (k, fun i => v i n, (e n : ℂ)) w = 0) : w = 0 := by
  set p0 : P N := (k, fun i => v i n, (e n : ℂ)) with hp0
  have hG := G_contDiff hH fun i => v i n
  have hline : HasDerivAt (fun s : ℝ => G H (fun i => v i n) (p0 + s • w)) 0 0 := by
    have h1 : HasDerivAt (fun s : ℝ => p0 + s • w) w 0 := by
      have := ((hasDerivAt_id (0 : ℝ)).smul_const w).const_add p0
      simpa using this
    have h2 : HasFDerivAt (G H fun i => v i n) (fderiv ℝ (G H fun i => v i n) p0) (p0 + (0 : ℝ) • w) := by
      rw [zero_smul, add_zero]
      exact (hG.differentiable (by norm_num)).differentiableAt.hasFDerivAt
    have h3 := h2.comp_hasDerivAt (0 : ℝ) h1
    rw [hw] at h3
    exact h3
  have hdt : w.1 = 0 := by
    have h1 := (ContinuousLinearMap.fst ℝ ℝ ((Fin N → ℂ) × ℂ)).hasFDerivAt.comp_hasDerivAt (0 : ℝ) hline
    have h2 : HasDerivAt (fun s : ℝ => k + s * w.1) w.1 0 := by
      have := ((hasDerivAt_id (0 : ℝ)).mul_const w.1).const_add k
      simpa using this
    exact h2.unique h1
  obtain ⟨dt, dφ, de⟩ := w
  simp only at hdt
  subst hdt
  have hcomp : ∀ i, ∑ j, H k i j * dφ j = e n * dφ i + de * v i n := by
    intro i
    have h1 := ((ContinuousLinearMap.fst ℝ (Fin N → ℂ) ℂ).comp (ContinuousLinearMap.snd ℝ ℝ ((Fin N → ℂ) × ℂ))).hasFDerivAt.comp_hasDerivAt (0 : ℝ) hline
    have h2 := hasDerivAt_pi.mp h1 i
    have h3 : HasDerivAt (fun s : ℝ => (∑ j, H (k + s * 0) i j * (v j n + s * dφ j)) - ((e n : ℂ) + s * de) * (v i n + s * dφ i))
        (∑ j, H k i j * dφ j - (de * v i n + e n * dφ i)) 0 := by
      simp only [mul_zero, add_zero]
      have lin : ∀ a b : ℂ, HasDerivAt (fun s : ℝ => a + (s : ℂ) * b) b 0 := fun a b => by
        have := ((hasDerivAt_id (0 : ℝ)).ofReal_comp.mul_const b).const_add a
        simpa using this
      have hs : HasDerivAt (fun s : ℝ => ∑ j, H k i j * (v j n + s * dφ j)) (∑ j, H k i j * dφ j) 0 :=
        HasDerivAt.fun_sum fun j _ => (lin (v j n) (dφ j)).const_mul _
      have hm := (lin (e n) de).mul (lin (v i n) (dφ i))
      simp only [ofReal_zero, zero_mul, add_zero] at hm
      exact hs.sub hm
    have h4 := h3.unique h2
    have h5 : ∑ j, H k i j * dφ j - (de * v i n + e n * dφ i) = 0 := h4
    rw [sub_eq_zero] at h5
    rw [h5, add_comm]
  have hover : coef v dφ n = 0 := by
    have h1 := ((ContinuousLinearMap.snd ℝ (Fin N → ℂ) ℂ).comp (ContinuousLinearMap.snd ℝ ℝ ((Fin N → ℂ) × ℂ))).hasFDerivAt.comp_hasDerivAt (0 : ℝ) hline
    have lin : ∀ a b : ℂ, HasDerivAt (fun s : ℝ => a + (s : ℂ) * b) b 0 := fun a b => by
      have := ((hasDerivAt_id (0 : ℝ)).ofReal_comp.mul_const b).const_add a
      simpa using this
    have hs : HasDerivAt (fun s : ℝ => ∑ i, (starRingEnd ℂ) (v i n) * (v i n + s * dφ i)) (coef v dφ n) 0 :=
      HasDerivAt.fun_sum fun i _ => (lin (v i n) (dφ i)).const_mul _
    exact hs.unique h1
  have hc : ∀ m, ((e m : ℂ) - e n) * coef v dφ m = de * if m = n then 1 else 0 := by
    intro m
    have h1 := coef_eig hherm hd dφ m
    rw [show (fun i => ∑ j, H k i j * dφ j) = fun i => (e n : ℂ) * dφ i + de * v i n from funext hcomp, coef_add, coef_smul, coef_smul, coef_col hd.2.1] at h1
    linear_combination -h1
  have hde : de = 0 := by
    have := hc n
    rw [if_pos rfl, sub_self, zero_mul, mul_one] at this
    exact this.symm
  have hφ : dφ = 0 := by
    refine coef_zero hd.2.1 fun m => ?_
    by_cases hm : m = n
    · rw [hm]; exact hover
    · have := hc m
      rw [hde, zero_mul] at this
      rcases mul_eq_zero.mp this with h | h
      · exact absurd (by exact_mod_cast sub_eq_zero.mp h) (hn m hm)
      · exact h
  rw [hde, hφ]
  rfl

/-- The implicit function theorem for a non-degenerate eigenvalue. -/
theorem branch (hH : ∀ i j, ContDiff ℝ 2 fun t => H t i j) (hherm : (H k).IsHermitian) (hd : Diagonalizes (H k) e v) (hn : ∀ m, m ≠ n → e m ≠ e n) :
    ∃ q : ℝ → P N, ContDiffAt ℝ 2 q k ∧ q k = (k, fun i => v i n, (e n : ℂ)) ∧ (∀ᶠ t in 𝓝 k, G H (fun i => v i n) (q t) = (t, 0, 1)) ∧
      ∀ p : ℝ → P N, Tendsto p (𝓝 k) (𝓝 (k, fun i => v i n, (e n : ℂ))) → (∀ᶠ t in 𝓝 k, G H (fun i => v i n) (p t) = (t, 0, 1)) → ∀ᶠ t in 𝓝 k, p t = q t := by
  set p0 : P N := (k, fun i => v i n, (e n : ℂ)) with hp0
  set F := G H fun i => v i n with hF
  have hG : ContDiffAt ℝ 2 F p0 := (G_contDiff hH _).contDiffAt
  have hinj : Function.Injective (fderiv ℝ F p0 : P N →ₗ[ℝ] P N) := by
    rw [injective_iff_map_eq_zero]
    exact fun w hw => G_inj hH hherm hd hn w hw
  let A : P N ≃L[ℝ] P N := (LinearEquiv.ofInjectiveEndo (fderiv ℝ F p0 : P N →ₗ[ℝ] P N) hinj).toContinuousLinearEquiv
  have hA : (A : P N →L[ℝ] P N) = fderiv ℝ F p0 := ContinuousLinearMap.ext fun w => rfl
  have hf' : HasFDerivAt F (A : P N →L[ℝ] P N) p0 := by
    rw [hA]; exact (hG.differentiableAt (by norm_num)).hasFDerivAt
  have hs := hG.hasStrictFDerivAt' hf' (by norm_num)
  have hbase : F p0 = (k, 0, 1) := G_base hd
  have hlift : ContDiffAt ℝ 2 (fun t : ℝ => ((t, 0, 1) : P N)) k := contDiffAt_id.prodMk contDiffAt_const
  have hinv : ContDiffAt ℝ 2 (hs.localInverse F A p0) (k, 0, 1) := by
    have := hG.to_localInverse hf' (by norm_num)
    rw [hbase] at this
    exact this
  refine ⟨fun t => hs.localInverse F A p0 (t, 0, 1), hinv.comp k hlift, ?_, ?_, ?_⟩
  · show hs.localInverse F A p0 (k, 0, 1) = p0
    rw [← hbase]; exact hs.localInverse_apply_image
  · have := hs.eventually_right_inverse
    rw [hbase] at this
    exact hlift.continuousAt.eventually this
  · intro p hp hGp
    filter_upwards [hp.eventually hs.eventually_left_inverse, hGp] with t h1 h2
    rw [← h1, h2]

/-- An eigenvalue of a Hermitian matrix is real. -/
theorem eig_real {h : Matrix (Fin N) (Fin N) ℂ} (hh : h.IsHermitian) {x : ℂ} {φ : Fin N → ℂ} (h0 : φ ≠ 0) (he : ∀ i, ∑ j, h i j * φ j = x * φ i) :
    (x.re : ℂ) = x := by
  have e1 : star φ ⬝ᵥ (h *ᵥ φ) = x * (star φ ⬝ᵥ φ) := by
    rw [show h *ᵥ φ = x • φ from funext fun i => he i, dotProduct_smul, smul_eq_mul]
  have e2 : (star φ ⬝ᵥ (h *ᵥ φ)).im = 0 := hh.im_star_dotProduct_mulVec_self φ
  have e3 : star φ ⬝ᵥ φ = ((∑ i, ‖φ i‖ ^ 2 : ℝ) : ℂ) := by
    unfold dotProduct
    push_cast
    exact Finset.sum_congr rfl fun i _ => by rw [Pi.star_apply, RCLike.star_def, Complex.conj_mul']
  have e4 : 0 < ∑ i, ‖φ i‖ ^ 2 := by
    obtain ⟨i, hi⟩ := Function.ne_iff.mp h0
    exact Finset.sum_pos' (fun j _ => sq_nonneg _) ⟨i, Finset.mem_univ _, pow_pos (norm_pos_iff.mpr hi) 2⟩
  rw [e1, e3, Complex.mul_im, Complex.ofReal_re, Complex.ofReal_im, mul_zero, zero_add] at e2
  have e5 : x.im = 0 := (mul_eq_zero.mp e2).resolve_right e4.ne'
  apply Complex.ext <;> simp [e5]

/-- Entrywise bound: an eigenvector of a nearby matrix with a nearby eigenvalue. -/
theorem close_eigenvector {η : ℝ} {a : Fin N → ℂ} (h0 : a ≠ 0) (hη : N * η < 1 / 2) (h : ∀ m, m ≠ n → ‖a m‖ ≤ η * ∑ l, ‖a l‖) :
    a n ≠ 0 ∧ ∀ m, m ≠ n → ‖a m / a n‖ ≤ 2 * η := by
  set S := ∑ l, ‖a l‖ with hS
  have hSpos : 0 < S := by
    obtain ⟨i, hi⟩ := Function.ne_iff.mp h0
    exact Finset.sum_pos' (fun j _ => norm_nonneg _) ⟨i, Finset.mem_univ _, norm_pos_iff.mpr hi⟩
  by_cases hη0 : 0 ≤ η
  · have h1 : S ≤ ‖a n‖ + N * (η * S) := by
      have hsum : S = ‖a n‖ + ∑ m ∈ Finset.univ.erase n, ‖a m‖ := (Finset.add_sum_erase _ _ (Finset.mem_univ n)).symm
      refine hsum.le.trans (add_le_add le_rfl ?_)
      refine (Finset.sum_le_card_nsmul _ _ (η * S) fun m hm => h m (Finset.ne_of_mem_erase hm)).trans ?_
      rw [nsmul_eq_mul]
      refine mul_le_mul_of_nonneg_right ?_ (mul_nonneg hη0 hSpos.le)
      have := Finset.card_le_univ (Finset.univ.erase n)
      rw [Fintype.card_fin] at this
      exact_mod_cast this
    have h2 : S / 2 ≤ ‖a n‖ := by nlinarith
    have h3 : a n ≠ 0 := norm_pos_iff.mp (by linarith)
    refine ⟨h3, fun m hm => ?_⟩
    rw [norm_div, div_le_iff₀ (norm_pos_iff.mpr h3)]
    have := h m hm
    nlinarith
  · push Not at hη0
    have hno : ∀ m, m = n := by
      intro m
      by_contra hm
      have := h m hm
      nlinarith [norm_nonneg (a m)]
    refine ⟨?_, fun m hm => absurd (hno m) hm⟩
    obtain ⟨i, hi⟩ := Function.ne_iff.mp h0
    rw [hno i] at hi
    exact hi

/-- Eigenvectors that belong to a continuous eigenvalue converge to the non-degenerate eigenvector. -/
theorem eigenvectors_tendsto (hH : ∀ i j, ContDiff ℝ 2 fun t => H t i j) (hherm : (H k).IsHermitian) (hd : Diagonalizes (H k) e v)
    (hn : ∀ m, m ≠ n → e m ≠ e n) {ε : ℝ → ℝ} (hc : ContinuousAt ε k) (hk : ε k = e n) {χ : ℝ → Fin N → ℂ}
    (hχ : ∀ᶠ t in 𝓝 k, χ t ≠ 0 ∧ ∀ i, ∑ j, H t i j * χ t j = ε t * χ t i) :
    (∀ᶠ t in 𝓝 k, coef v (χ t) n ≠ 0) ∧ Tendsto (fun t i => χ t i / coef v (χ t) n) (𝓝 k) (𝓝 fun i => v i n) := by
  -- the perturbation in the eigenbasis
  let Δ : ℝ → Matrix (Fin N) (Fin N) ℂ := fun t => vᴴ * (H k - H t + ((ε t - e n : ℝ) : ℂ) • (1 : Matrix (Fin N) (Fin N) ℂ)) * v
  have hΔc : ∀ m l, Tendsto (fun t => Δ t m l) (𝓝 k) (𝓝 0) := by
    intro m l
    have h1 : ∀ i j, Tendsto (fun t => (H k - H t + ((ε t - e n : ℝ) : ℂ) • (1 : Matrix (Fin N) (Fin N) ℂ)) i j) (𝓝 k) (𝓝 0) := by
      intro i j
      have hh : Tendsto (fun t => H t i j) (𝓝 k) (𝓝 (H k i j)) := (hH i j).continuous.continuousAt
      have he : Tendsto (fun t => ((ε t - e n : ℝ) : ℂ)) (𝓝 k) (𝓝 0) := by
        have h2 : Tendsto (fun t => ε t - e n) (𝓝 k) (𝓝 0) := by
          have hc' : Tendsto ε (𝓝 k) (𝓝 (ε k)) := hc
          have := hc'.sub (tendsto_const_nhds (x := e n))
          rw [hk, sub_self] at this
          exact this
        have := (continuous_ofReal.tendsto (0 : ℝ)).comp h2
        rw [ofReal_zero] at this
        exact this
      have h3 := (tendsto_const_nhds (x := H k i j)).sub hh
      have h4 := he.mul (tendsto_const_nhds (x := (1 : Matrix (Fin N) (Fin N) ℂ) i j))
      have h5 := h3.add h4
      rw [sub_self, zero_mul, add_zero] at h5
      exact h5
    have h2 : (fun t => Δ t m l) = fun t => ∑ j, (∑ i, vᴴ m i * (H k - H t + ((ε t - e n : ℝ) : ℂ) • (1 : Matrix (Fin N) (Fin N) ℂ)) i j) * v j l := by
      funext t
      show (vᴴ * (H k - H t + ((ε t - e n : ℝ) : ℂ) • (1 : Matrix (Fin N) (Fin N) ℂ)) * v) m l = _
      rw [Matrix.mul_apply]
      exact Finset.sum_congr rfl fun j _ => by rw [Matrix.mul_apply]
    rw [h2]
    have h6 : Tendsto (fun t => ∑ j, (∑ i, vᴴ m i * (H k - H t + ((ε t - e n : ℝ) : ℂ) • (1 : Matrix (Fin N) (Fin N) ℂ)) i j) * v j l) (𝓝 k)
        (𝓝 (∑ j, (∑ i, vᴴ m i * 0) * v j l)) :=
      tendsto_finsetSum _ fun j _ => (tendsto_finsetSum _ fun i _ => (h1 i j).const_mul _).mul_const _
    simpa using h6
  let η : ℝ → ℝ := fun t => ∑ m, ∑ l, ‖Δ t m l‖ / |e m - e n|
  have hη : Tendsto η (𝓝 k) (𝓝 0) := by
    have : Tendsto η (𝓝 k) (𝓝 (∑ m : Fin N, ∑ _l : Fin N, ‖(0 : ℂ)‖ / |e m - e n|)) :=
      tendsto_finsetSum _ fun m _ => tendsto_finsetSum _ fun l _ => (hΔc m l).norm.div_const _
    simpa using this
  have hsmall : ∀ᶠ t in 𝓝 k, N * η t < 1 / 2 := by
    have h1 : Tendsto (fun t => N * η t) (𝓝 k) (𝓝 0) := by simpa using hη.const_mul (N : ℝ)
    exact h1.eventually (gt_mem_nhds (by norm_num))
  have hv2 : v * vᴴ = 1 := mul_eq_one_comm.mp hd.2.1
  have hbound : ∀ᶠ t in 𝓝 k, coef v (χ t) n ≠ 0 ∧ ∀ m, m ≠ n → ‖coef v (χ t) m / coef v (χ t) n‖ ≤ 2 * η t := by
    filter_upwards [hχ, hsmall] with t ht hs
    obtain ⟨h0, heig⟩ := ht
    refine close_eigenvector (a := coef v (χ t)) (fun h => h0 (coef_zero hd.2.1 fun m => congrFun h m)) hs fun m hm => ?_
    -- the equation in the eigenbasis
    have e1 : (vᴴ * (H k - H t + ((ε t - e n : ℝ) : ℂ) • (1 : Matrix (Fin N) (Fin N) ℂ))) *ᵥ χ t = Δ t *ᵥ coef v (χ t) := by
      show _ = (vᴴ * _ * v) *ᵥ (vᴴ *ᵥ χ t)
      rw [Matrix.mulVec_mulVec, Matrix.mul_assoc _ v, hv2, Matrix.mul_one]
    have e2 : H t *ᵥ χ t = (ε t : ℂ) • χ t := funext fun i => heig i
    have e3 : (H k - H t + ((ε t - e n : ℝ) : ℂ) • (1 : Matrix (Fin N) (Fin N) ℂ)) *ᵥ χ t = fun i => ∑ j, H k i j * χ t j + (-(e n : ℂ)) * χ t i := by
      rw [Matrix.add_mulVec, Matrix.sub_mulVec, e2, Matrix.smul_mulVec, Matrix.one_mulVec]
      funext i
      simp only [Pi.add_apply, Pi.sub_apply, Pi.smul_apply, smul_eq_mul]
      show ∑ j, H k i j * χ t j - _ + _ = _
      push_cast
      ring
    have e4 : ((e m : ℂ) - e n) * coef v (χ t) m = ∑ l, Δ t m l * coef v (χ t) l := by
      have h1 := congrFun e1 m
      rw [← Matrix.mulVec_mulVec, e3] at h1
      have h2 : coef v (fun i => ∑ j, H k i j * χ t j + (-(e n : ℂ)) * χ t i) m = ∑ l, Δ t m l * coef v (χ t) l := h1
      rw [coef_add, coef_smul, coef_eig hherm hd] at h2
      rw [← h2]; ring
    have hg : 0 < |e m - e n| := abs_pos.mpr (sub_ne_zero.mpr (hn m hm))
    have e5 : |e m - e n| * ‖coef v (χ t) m‖ ≤ (∑ l, ‖Δ t m l‖) * ∑ l, ‖coef v (χ t) l‖ := by
      have h1 := congrArg norm e4
      rw [norm_mul, ← ofReal_sub, norm_real, Real.norm_eq_abs] at h1
      rw [h1, Finset.sum_mul]
      refine (norm_sum_le _ _).trans (Finset.sum_le_sum fun l _ => ?_)
      rw [norm_mul]
      exact mul_le_mul_of_nonneg_left (Finset.single_le_sum (f := fun l => ‖coef v (χ t) l‖) (fun _ _ => norm_nonneg _) (Finset.mem_univ l)) (norm_nonneg _)
    have e6 : (∑ l, ‖Δ t m l‖) / |e m - e n| ≤ η t := by
      rw [Finset.sum_div]
      exact Finset.single_le_sum (f := fun m => ∑ l, ‖Δ t m l‖ / |e m - e n|)
        (fun _ _ => Finset.sum_nonneg fun _ _ => div_nonneg (norm_nonneg _) (abs_nonneg _)) (Finset.mem_univ m)
    have hS : 0 ≤ ∑ l, ‖coef v (χ t) l‖ := Finset.sum_nonneg fun _ _ => norm_nonneg _
    calc ‖coef v (χ t) m‖ ≤ ((∑ l, ‖Δ t m l‖) * ∑ l, ‖coef v (χ t) l‖) / |e m - e n| := by
          rw [le_div_iff₀ hg, mul_comm]; exact e5
      _ = (∑ l, ‖Δ t m l‖) / |e m - e n| * ∑ l, ‖coef v (χ t) l‖ := by ring
      _ ≤ η t * ∑ l, ‖coef v (χ t) l‖ := mul_le_mul_of_nonneg_right e6 hS
  refine ⟨hbound.mono fun t h => h.1, ?_⟩
  have hb : ∀ m, Tendsto (fun t => coef v (χ t) m / coef v (χ t) n) (𝓝 k) (𝓝 (if m = n then 1 else 0)) := by
    intro m
    by_cases hm : m = n
    · rw [if_pos hm, hm]
      refine (tendsto_const_nhds (x := (1 : ℂ))).congr' ?_
      filter_upwards [hbound] with t ht
      rw [div_self ht.1]
    · rw [if_neg hm]
      have h2 : Tendsto (fun t => 2 * η t) (𝓝 k) (𝓝 0) := by simpa using hη.const_mul (2 : ℝ)
      exact squeeze_zero_norm' (hbound.mono fun t ht => ht.2 m hm) h2
  rw [tendsto_pi_nhds]
  intro i
  have h1 : (fun t => χ t i / coef v (χ t) n) = fun t => ∑ m, v i m * (coef v (χ t) m / coef v (χ t) n) := by
    funext t
    rw [coef_expand hd.2.1 (χ t) i, Finset.sum_div]
    refine Finset.sum_congr rfl fun m _ => ?_
    ring
  rw [h1]
  have h2 : v i n = ∑ m, v i m * (if m = n then 1 else 0) := by simp
  rw [h2]
  exact tendsto_finsetSum _ fun m _ => (hb m).const_mul _

/-- The derivatives of a non-degenerate eigenvalue: there is a twice differentiable eigenvalue, every continuous eigenvalue coincides with it, and the two
derivatives are given by perturbation theory. -/
theorem perturb {H1 H2 : ℝ → Matrix (Fin N) (Fin N) ℂ} (hH : ∀ i j, ContDiff ℝ 2 fun t => H t i j) (hherm : ∀ t, (H t).IsHermitian)
    (hH1 : ∀ t i j, HasDerivAt (fun t => H t i j) (H1 t i j) t) (hH2 : ∀ t i j, HasDerivAt (fun t => H1 t i j) (H2 t i j) t)
    (hd : Diagonalizes (H k) e v) (hn : ∀ m, m ≠ n → e m ≠ e n) :
    ∃ ε : ℝ → ℝ, ε k = e n ∧ ContDiffAt ℝ 2 ε k ∧ (∀ᶠ t in 𝓝 k, IsEig (H t) (ε t)) ∧
      (∀ ε' : ℝ → ℝ, ContinuousAt ε' k → ε' k = e n → (∀ᶠ t in 𝓝 k, IsEig (H t) (ε' t)) → ∀ᶠ t in 𝓝 k, ε' t = ε t) ∧
      HasDerivAt ε ((vᴴ * H1 k * v) n n).re k ∧
      HasDerivAt (deriv ε) (((vᴴ * H2 k * v) n n).re + 2 * ∑ m ∈ Finset.univ.erase n, ‖(vᴴ * H1 k * v) m n‖ ^ 2 / (e n - e m)) k := by
  obtain ⟨q, hq, hqk, hqG, hqu⟩ := branch hH (hherm k) hd hn
  let φ : ℝ → Fin N → ℂ := fun t => (q t).2.1
  let ω : ℝ → ℂ := fun t => (q t).2.2
  have hφ : ContDiffAt ℝ 2 φ k := (hq.snd).fst
  have hω : ContDiffAt ℝ 2 ω k := (hq.snd).snd
  have hφk : φ k = fun i => v i n := by show (q k).2.1 = _; rw [hqk]
  have hωk : ω k = e n := by show (q k).2.2 = _; rw [hqk]
  -- the equations
  have heq : ∀ᶠ t in 𝓝 k, (∀ i, ∑ j, H t i j * φ t j - ω t * φ t i = 0) ∧ coef v (φ t) n = 1 := by
    filter_upwards [hqG] with t ht
    have h1 : (q t).1 = t := congrArg Prod.fst ht
    have h2 := congrArg (fun p : P N => p.2.1) ht
    have h3 := congrArg (fun p : P N => p.2.2) ht
    refine ⟨fun i => ?_, h3⟩
    have h4 := congrFun h2 i
    have h5 : ∑ j, H (q t).1 i j * (q t).2.1 j - (q t).2.2 * (q t).2.1 i = 0 := h4
    rw [h1] at h5
    exact h5
  have hne : ∀ᶠ t in 𝓝 k, φ t ≠ 0 := by
    filter_upwards [heq] with t ht h0
    have := ht.2
    rw [h0] at this
    simp [coef] at this
  have hreal : ∀ᶠ t in 𝓝 k, ((ω t).re : ℂ) = ω t := by
    filter_upwards [heq, hne] with t ht h0
    exact eig_real (hherm t) h0 fun i => sub_eq_zero.mp (ht.1 i)
  obtain ⟨dφ, ddφ⟩ := twice hφ
  obtain ⟨dω, ddω⟩ := twice hω
  set φ' := deriv φ with hφ'
  set ω' := deriv ω with hω'
  -- first derivative of the equations
  have heq1 : ∀ᶠ t in 𝓝 k, (∀ i, ∑ j, (H1 t i j * φ t j + H t i j * φ' t j) - (ω' t * φ t i + ω t * φ' t i) = 0) ∧ coef v (φ' t) n = 0 := by
    filter_upwards [heq.eventually_nhds, dφ, dω] with t ht hφt hωt
    have hφi := hasDerivAt_pi.mp hφt
    refine ⟨fun i => ?_, ?_⟩
    · refine deriv_zero (f := fun t => ∑ j, H t i j * φ t j - ω t * φ t i) (ht.mono fun s hs => hs.1 i) ?_
      exact (HasDerivAt.fun_sum fun j _ => (hH1 t i j).mul (hφi j)).sub (hωt.mul (hφi i))
    · exact deriv_zero (f := fun t => coef v (φ t) n) (ht.mono fun s hs => hs.2) (HasDerivAt.fun_sum fun i _ => (hφi i).const_mul _)
  have hφi := hasDerivAt_pi.mp dφ.self_of_nhds
  have hφi' := hasDerivAt_pi.mp ddφ
  have heq2 : ∀ i, ∑ j, ((H2 k i j * φ k j + H1 k i j * φ' k j) + (H1 k i j * φ' k j + H k i j * deriv φ' k j)) -
      ((deriv ω' k * φ k i + ω' k * φ' k i) + (ω' k * φ' k i + ω k * deriv φ' k i)) = 0 := by
    intro i
    refine deriv_zero (f := fun t => ∑ j, (H1 t i j * φ t j + H t i j * φ' t j) - (ω' t * φ t i + ω t * φ' t i)) (heq1.mono fun s hs => hs.1 i) ?_
    refine (HasDerivAt.fun_sum fun j _ => ?_).sub ?_
    · exact ((hH2 k i j).mul (hφi j)).add ((hH1 k i j).mul (hφi' j))
    · exact (ddω.mul (hφi i)).add (dω.self_of_nhds.mul (hφi' i))
  obtain ⟨h1k, h1n⟩ := heq1.self_of_nhds
  -- matrix elements
  have mel : ∀ (A : Matrix (Fin N) (Fin N) ℂ) m l, coef v (fun i => ∑ j, A i j * v j l) m = (vᴴ * A * v) m l := by
    intro A m l
    rw [Matrix.mul_assoc, Matrix.mul_apply]
    exact Finset.sum_congr rfl fun i _ => by rw [Matrix.mul_apply]; rfl
  have proj1 : ∀ m, (vᴴ * H1 k * v) m n + e m * coef v (φ' k) m = ω' k * (if m = n then 1 else 0) + e n * coef v (φ' k) m := by
    intro m
    have h1 : (fun i => ∑ j, H1 k i j * v j n + ∑ j, H k i j * φ' k j) = fun i => ω' k * v i n + (e n : ℂ) * φ' k i := by
      funext i
      have := h1k i
      rw [Finset.sum_add_distrib, hφk, hωk] at this
      exact sub_eq_zero.mp this
    have h2 : coef v (fun i => ∑ j, H1 k i j * v j n + ∑ j, H k i j * φ' k j) m = coef v (fun i => ω' k * v i n + (e n : ℂ) * φ' k i) m := by rw [h1]
    rw [coef_add, coef_add, coef_smul, coef_smul, mel, coef_eig (hherm k) hd, coef_col hd.2.1] at h2
    exact h2
  have hv1 : ω' k = (vᴴ * H1 k * v) n n := by
    have := proj1 n
    rw [if_pos rfl, mul_one] at this
    exact (add_right_cancel this).symm
  have hcm : ∀ m, m ≠ n → coef v (φ' k) m = (vᴴ * H1 k * v) m n / (e n - e m) := by
    intro m hm
    have := proj1 m
    rw [if_neg hm, mul_zero, zero_add] at this
    rw [eq_div_iff (by rw [sub_ne_zero]; exact_mod_cast (hn m hm).symm)]
    linear_combination -this
  have hH1herm : (H1 k)ᴴ = H1 k := by
    ext i j
    have h1 : HasDerivAt (fun t => (starRingEnd ℂ) (H t j i)) ((starRingEnd ℂ) (H1 k j i)) k := by
      have := (Complex.conjCLE : ℂ →L[ℝ] ℂ).hasFDerivAt.comp_hasDerivAt k (hH1 k j i)
      exact this
    have h2 : (fun t => (starRingEnd ℂ) (H t j i)) = fun t => H t i j := by
      funext t; exact (hherm t).apply i j
    rw [h2] at h1
    exact h1.unique (hH1 k i j)
  have hadj : ∀ m, (vᴴ * H1 k * v) n m = (starRingEnd ℂ) ((vᴴ * H1 k * v) m n) := by
    intro m
    have : (vᴴ * H1 k * v)ᴴ = vᴴ * H1 k * v := by
      rw [conjTranspose_mul, conjTranspose_mul, conjTranspose_conjTranspose, hH1herm, Matrix.mul_assoc]
    exact (congrFun (congrFun this n) m).symm
  have proj2 : deriv ω' k = (vᴴ * H2 k * v) n n + 2 * coef v (fun i => ∑ j, H1 k i j * φ' k j) n := by
    have h1 : (fun i => ∑ j, H2 k i j * v j n + (2 * ∑ j, H1 k i j * φ' k j + ∑ j, H k i j * deriv φ' k j)) =
        fun i => deriv ω' k * v i n + (2 * ω' k * φ' k i + (e n : ℂ) * deriv φ' k i) := by
      funext i
      have := heq2 i
      rw [Finset.sum_add_distrib, Finset.sum_add_distrib, Finset.sum_add_distrib, hφk, hωk] at this
      linear_combination this
    have h2 : coef v (fun i => ∑ j, H2 k i j * v j n + (2 * ∑ j, H1 k i j * φ' k j + ∑ j, H k i j * deriv φ' k j)) n =
        coef v (fun i => deriv ω' k * v i n + (2 * ω' k * φ' k i + (e n : ℂ) * deriv φ' k i)) n := by rw [h1]
    rw [coef_add, coef_add, coef_add, coef_add, coef_smul, coef_smul, coef_smul, coef_smul, mel, coef_eig (hherm k) hd, coef_col hd.2.1, h1n, if_pos rfl] at h2
    linear_combination -h2
  have hsecond : coef v (fun i => ∑ j, H1 k i j * φ' k j) n = ((∑ m ∈ Finset.univ.erase n, ‖(vᴴ * H1 k * v) m n‖ ^ 2 / (e n - e m) : ℝ) : ℂ) := by
    have h1 : ∀ i, ∑ j, H1 k i j * φ' k j = ∑ m, coef v (φ' k) m * ∑ j, H1 k i j * v j m := by
      intro i
      rw [Finset.sum_congr rfl fun j _ => by rw [coef_expand hd.2.1 (φ' k) j]]
      simp only [Finset.mul_sum]
      rw [Finset.sum_comm]
      exact Finset.sum_congr rfl fun m _ => Finset.sum_congr rfl fun j _ => by ring
    have h2 : coef v (fun i => ∑ j, H1 k i j * φ' k j) n = ∑ m, coef v (φ' k) m * (vᴴ * H1 k * v) n m := by
      rw [show (fun i => ∑ j, H1 k i j * φ' k j) = fun i => ∑ m, coef v (φ' k) m * ∑ j, H1 k i j * v j m from funext h1]
      unfold coef
      simp only [Finset.mul_sum]
      rw [Finset.sum_comm]
      refine Finset.sum_congr rfl fun m _ => ?_
      rw [← mel]
      unfold coef
      simp only [Finset.mul_sum]
      refine Finset.sum_congr rfl fun i _ => ?_
      refine Finset.sum_congr rfl fun j _ => ?_
      ring
    rw [h2, ← Finset.add_sum_erase _ _ (Finset.mem_univ n), h1n, zero_mul, zero_add]
    push_cast
    refine Finset.sum_congr rfl fun m hm => ?_
    rw [hcm m (Finset.ne_of_mem_erase hm), hadj m, div_mul_eq_mul_div, Complex.mul_conj']
  -- the real branch
  have hε : ContDiffAt ℝ 2 (fun t => (ω t).re) k := (Complex.reCLM.contDiff.contDiffAt).comp k hω
  have hderiv : ∀ᶠ t in 𝓝 k, HasDerivAt (fun t => (ω t).re) ((ω' t).re) t := by
    filter_upwards [dω] with t ht
    exact (Complex.reCLM.hasFDerivAt).comp_hasDerivAt t ht
  refine ⟨fun t => (ω t).re, ?_, hε, ?_, ?_, ?_, ?_⟩
  · show (ω k).re = e n
    rw [hωk, ofReal_re]
  · filter_upwards [heq, hne, hreal] with t ht h0 hr
    refine ⟨φ t, h0, fun i => ?_⟩
    rw [hr]
    exact sub_eq_zero.mp (ht.1 i)
  · intro ε' hc hk' hev
    -- choose eigenvectors
    have hex : ∀ t, ∃ χ : Fin N → ℂ, IsEig (H t) (ε' t) → χ ≠ 0 ∧ ∀ i, ∑ j, H t i j * χ j = ε' t * χ i := by
      intro t
      by_cases h : IsEig (H t) (ε' t)
      · obtain ⟨χ, hχ⟩ := h; exact ⟨χ, fun _ => hχ⟩
      · exact ⟨0, fun h' => absurd h' h⟩
    choose χ hχ using hex
    obtain ⟨hcoef, htend⟩ := eigenvectors_tendsto hH (hherm k) hd hn hc hk' (hev.mono fun t ht => hχ t ht)
    have hp := hqu (fun t => (t, fun i => χ t i / coef v (χ t) n, (ε' t : ℂ))) ?_ ?_
    · filter_upwards [hp] with t ht
      have : ω t = ε' t := (congrArg (fun p : P N => p.2.2) ht).symm
      rw [this, ofReal_re]
    · refine Tendsto.prodMk_nhds tendsto_id (htend.prodMk_nhds ?_)
      have hc' : Tendsto ε' (𝓝 k) (𝓝 (ε' k)) := hc
      rw [hk'] at hc'
      exact (continuous_ofReal.tendsto _).comp hc'
    · filter_upwards [hev, hcoef] with t ht hct
      obtain ⟨-, hχt⟩ := hχ t ht
      refine Prod.ext rfl (Prod.ext ?_ ?_)
      · funext i
        show ∑ j, H t i j * (χ t j / coef v (χ t) n) - ε' t * (χ t i / coef v (χ t) n) = 0
        rw [Finset.sum_congr rfl fun j _ => (mul_div_assoc (H t i j) (χ t j) (coef v (χ t) n)).symm, ← Finset.sum_div, hχt i]
        ring
      · show ∑ i, (starRingEnd ℂ) (v i n) * (χ t i / coef v (χ t) n) = 1
        rw [Finset.sum_congr rfl fun i _ => (mul_div_assoc _ (χ t i) (coef v (χ t) n)).symm, ← Finset.sum_div]
        exact div_self hct
  · have := hderiv.self_of_nhds
    rw [hv1] at this
    exact this
  · have h1 : deriv (fun t => (ω t).re) =ᶠ[𝓝 k] fun t => (ω' t).re := hderiv.mono fun t ht => ht.deriv
    have h2 : HasDerivAt (fun t => (ω' t).re) ((deriv ω' k).re) k := (Complex.reCLM.hasFDerivAt).comp_hasDerivAt k ddω
    rw [proj2, hsecond] at h2
    have h3 : ((vᴴ * H2 k * v) n n + 2 * ((∑ m ∈ Finset.univ.erase n, ‖(vᴴ * H1 k * v) m n‖ ^ 2 / (e n - e m) : ℝ) : ℂ)).re =
        ((vᴴ * H2 k * v) n n).re + 2 * ∑ m ∈ Finset.univ.erase n, ‖(vᴴ * H1 k * v) m n‖ ^ 2 / (e n - e m) := by
      rw [Complex.add_re, ← Complex.ofReal_ofNat, Complex.re_ofReal_mul, Complex.ofReal_re]
    rw [h3] at h2
    exact h2.congr_of_eventuallyEq h1

end

end Kwant.Bands
