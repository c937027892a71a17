import Verif.Leads.Modes
import Mathlib.Analysis.Normed.Algebra.GelfandFormula
import Mathlib.Analysis.Matrix.Normed
import Mathlib.LinearAlgebra.Matrix.Charpoly.Eigs
import Mathlib.Tactic.LinearCombination

/-!
C114: the specification of the modes of a lead, and how it behaves under the operations of `transform_modes` and `modes`.
-/

set_option linter.unusedSectionVars false

namespace Kwant.Leads
open Matrix Complex Filter

variable {n : ℕ}

/-! ### Specification -/

/-- What a user and the solvers rely on in the modes of a lead with the cell Hamiltonian `h` (with the energy subtracted) and the hopping `hop`.  `N`, `Q`, `R` index the
propagating modes, the evanescent ones, and the rows of the stabilized modes `X = vecslmbdainv`, `Y = vecs`.  `s` is the relative sign of the wave functions and the
stabilized modes. -/
structure LeadSpec {N Q R : Type} [Fintype N] [Fintype Q] [Fintype R] [DecidableEq N] [DecidableEq Q] [DecidableEq R] (h hop : Matrix (Fin n) (Fin n) ℂ)
    (wf : Matrix (Fin n) N ℂ) (mom vel : N → ℝ) (X Y : Matrix R (N ⊕ Q) ℂ) (v : Matrix (Fin n) R ℂ) (s : N → ℂ) : Prop where
  number : Fintype.card N + 2 * Fintype.card Q = 2 * Fintype.card R
  nonzero : ∀ i, vel i ≠ 0
  range : ∀ i, |mom i| ≤ Real.pi
  bloch : ∀ i, IsBloch h hop (cexp (-(I * mom i))) (wf.col i)
  /-- Modes of the same momentum are orthogonal, and normalized to unit current. -/
  orthogonal : ∀ i j, cexp (-(I * mom i)) = cexp (-(I * mom j)) → star (wf.col i) ⬝ᵥ wf.col j = if i = j then ((1 / |vel i| : ℝ) : ℂ) else 0
  velocity : ∀ i j, cexp (-(I * mom i)) = cexp (-(I * mom j)) →
    star (wf.col i) ⬝ᵥ (velK hop (mom i) *ᵥ wf.col j) = if i = j then ((vel i / |vel i| : ℝ) : ℂ) else 0
  /-- Every Bloch wave is a combination of the modes of its momentum. -/
  complete : ∀ (k : ℝ) (ψ : Fin n → ℂ), IsBloch h hop (cexp (-(I * k))) ψ → ∃ c : N → ℂ, (∀ i, cexp (-(I * mom i)) ≠ cexp (-(I * k)) → c i = 0) ∧ ψ = wf *ᵥ c
  sign : ∀ i, s i = 1 ∨ s i = -1
  /-- The hopping is `u vᴴ`.  A propagating mode stands for its Bloch wave, the evanescent modes for the solutions `Ψ_j = Φ E^j` in the lead, the powers of `E` decay,
  and `u X` replaces `hop Ψ_(-1)`. -/
  solves : ∃ u : Matrix (Fin n) R ℂ, hop = u * vᴴ ∧ (∀ x, u *ᵥ x = 0 → x = 0) ∧
    (∀ i, X.col (.inl i) = s i • (vᴴ *ᵥ wf.col i) ∧ cexp (-(I * mom i)) • Y.col (.inl i) = s i • (uᴴ *ᵥ wf.col i)) ∧
    ∃ (Φ : Matrix (Fin n) Q ℂ) (E : Matrix Q Q ℂ), (∀ a b, Tendsto (fun t : ℕ => (E ^ t) a b) atTop (nhds 0)) ∧
      X.toCols₂ * E = vᴴ * Φ ∧ Y.toCols₂ = uᴴ * Φ ∧ h * Φ + v * (Y.toCols₂ * E) + u * X.toCols₂ = 0
  /-- Every propagating mode carries unit current in the direction of its velocity, the evanescent modes carry none, and no current flows between different modes. -/
  current : I • (Xᴴ * Y - Yᴴ * X) = diagonal (Sum.elim (fun i => ((vel i / |vel i| : ℝ) : ℂ)) fun _ => 0)
  /-- The evanescent modes are linearly independent. -/
  indep : ∀ c, X.toCols₂ *ᵥ c = 0 → Y.toCols₂ *ᵥ c = 0 → c = 0

/-- The specification, for the data of the lead or of a block. -/
def BM.Spec (m : BM n) (h hop : Matrix (Fin n) (Fin n) ℂ) (s : Fin m.p ⊕ Fin m.p → ℂ) : Prop := LeadSpec h hop m.wf m.mom m.vel m.vecsl m.vecs m.v s

/-- The first half of the modes moves towards the scattering region, the second one away from it. -/
def BM.Directed (m : BM n) : Prop := (∀ i, m.vel (.inl i) < 0) ∧ ∀ i, 0 < m.vel (.inr i)

/-! ### Decay of the evanescent modes -/

section
attribute [local instance] Matrix.linftyOpNormedRing Matrix.linftyOpNormedAlgebra

theorem pow_tendsto_zero {q : ℕ} {E : Matrix (Fin q) (Fin q) ℂ} (ht : ∀ i j, j < i → E i j = 0) (hd : ∀ i, ‖E i i‖ < 1) (a b : Fin q) :
    Tendsto (fun t : ℕ => (E ^ t) a b) atTop (nhds 0) := by
  haveI : Nonempty (Fin q) := ⟨a⟩
  have hsp : ∀ z ∈ spectrum ℂ E, ‖z‖ < 1 := by
    intro z hz
    rw [spectrum.mem_iff, Matrix.isUnit_iff_isUnit_det, isUnit_iff_ne_zero, not_not] at hz
    have hbt : (algebraMap ℂ (Matrix (Fin q) (Fin q) ℂ) z - E).BlockTriangular id := by
      intro i j hij
      rw [Matrix.sub_apply, ht i j hij, Matrix.algebraMap_matrix_apply, if_neg (show i ≠ j from ne_of_gt hij), sub_zero]
    rw [det_of_isUpperTriangular hbt, Finset.prod_eq_zero_iff] at hz
    obtain ⟨i, _, hi⟩ := hz
    rw [Matrix.sub_apply, Matrix.algebraMap_matrix_apply, if_pos rfl, sub_eq_zero] at hi
    have : z = E i i := hi
    rw [this]
    exact hd i
  haveI : CompleteSpace (Matrix (Fin q) (Fin q) ℂ) := inferInstance
  have hr : spectralRadius ℂ E < (1 : NNReal) := by
    refine spectrum.spectralRadius_lt_of_forall_lt E ?_
    intro z hz
    have := hsp z hz
    exact_mod_cast this
  have hlim := spectrum.pow_nnnorm_pow_one_div_tendsto_nhds_spectralRadius E
  obtain ⟨c, hc1, hc2⟩ := exists_between hr
  have hev : ∀ᶠ t : ℕ in atTop, ((‖E ^ t‖₊ : ENNReal) ^ (1 / t : ℝ)) < c := hlim.eventually_lt_const hc1
  have hc3 : c ≠ ⊤ := ne_top_of_lt hc2
  have hbound : ∀ᶠ t : ℕ in atTop, ‖E ^ t‖ ≤ c.toReal ^ t := by
    filter_upwards [hev, eventually_gt_atTop 0] with t h1 h2
    have h3 : (‖E ^ t‖₊ : ENNReal) ≤ c ^ t := by
      have h4 := ENNReal.rpow_le_rpow h1.le (z := (t : ℝ)) (by positivity)
      rw [← ENNReal.rpow_mul, one_div, inv_mul_cancel₀ (by positivity), ENNReal.rpow_one, ENNReal.rpow_natCast] at h4
      exact h4
    have h5 := ENNReal.toReal_mono (ENNReal.pow_ne_top hc3) h3
    rw [ENNReal.toReal_pow] at h5
    simpa using h5
  have hc4 : c.toReal < 1 := by
    have := (ENNReal.toReal_lt_toReal hc3 ENNReal.coe_ne_top).mpr hc2
    simpa using this
  have hz : Tendsto (fun t : ℕ => c.toReal ^ t) atTop (nhds 0) := tendsto_pow_atTop_nhds_zero_of_lt_one ENNReal.toReal_nonneg hc4
  have hentry : ∀ M : Matrix (Fin q) (Fin q) ℂ, ‖M a b‖ ≤ ‖M‖ := by
    intro M
    have h1 : ‖M a b‖₊ ≤ ‖M‖₊ := by
      rw [Matrix.linfty_opNNNorm_def]
      refine le_trans ?_ (Finset.le_sup (f := fun i => ∑ j, ‖M i j‖₊) (Finset.mem_univ a))
      exact Finset.single_le_sum (f := fun j => ‖M a j‖₊) (fun _ _ => zero_le) (Finset.mem_univ b)
    exact_mod_cast h1
  rw [tendsto_zero_iff_norm_tendsto_zero]
  refine squeeze_zero' (Eventually.of_forall fun _ => norm_nonneg _) ?_ hz
  filter_upwards [hbound] with t ht
  exact (hentry _).trans ht
end

end Kwant.Leads
