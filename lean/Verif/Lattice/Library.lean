import Verif.Lattice.Counter

/-!
C102: the lattices of the library (`chain`, `square`, `cubic`, `triangular`, `honeycomb`, `kagome`, lattice.py l.738-788) are not affected by the problem of
`C102_counterexample`: their primitive vectors are already reduced.
-/

set_option linter.unusedSectionVars false

namespace Kwant.Lat
open Kwant.LLL Kwant.Cvp Kwant.Voronoi InnerProductSpace

local notation "⟪" x ", " y "⟫" => inner ℝ x y

section
variable {E : Type*} [NormedAddCommGroup E] [InnerProductSpace ℝ E] {D : ℕ}

/-- Orthogonal vectors of the same length: `chain`, `square` and `cubic` (l.738-752). -/
theorem orth_reduced {prim : Fin D → E} {a : ℝ} (ha : a ≠ 0) (hn : ∀ i, ‖prim i‖ ^ 2 = a ^ 2) (ho : Pairwise fun i j => ⟪prim i, prim j⟫ = 0) :
    SizeReduced prim ∧ CReduced 1.34 prim := by
  have hg : gramSchmidt ℝ prim = prim := gramSchmidt_of_orthogonal ℝ ho
  have ha2 : 0 < a ^ 2 := by positivity
  constructor
  · intro i j hij
    rw [hg, ho (ne_of_gt hij), abs_zero]
    positivity
  · intro k l _
    rw [hg, hn, hn]
    norm_num
    nlinarith

/-- Two vectors of the same length at 60 degrees: `triangular`, `honeycomb`, `kagome` (l.755-788). -/
theorem tri_reduced {prim : Fin 2 → E} {a : ℝ} (ha : a ≠ 0) (h0 : ‖prim 0‖ ^ 2 = a ^ 2) (h1 : ‖prim 1‖ ^ 2 = a ^ 2) (h01 : ⟪prim 0, prim 1⟫ = a ^ 2 / 2) :
    SizeReduced prim ∧ CReduced 1.34 prim := by
  have ha2 : 0 < a ^ 2 := by positivity
  have g0 : gramSchmidt ℝ prim 0 = prim 0 := by
    rw [gs_step, show Finset.Iio (0 : Fin 2) = ∅ by decide, Finset.sum_empty, sub_zero]
  have hI : Finset.Iio (1 : Fin 2) = {0} := by decide
  have g1 : gramSchmidt ℝ prim 1 = prim 1 - (1 / 2 : ℝ) • prim 0 := by
    rw [gs_step, hI, Finset.sum_singleton, g0]
    unfold gsCoef
    rw [real_inner_comm, h01, h0]
    congr 2
    field_simp
  have n1 : ‖gramSchmidt ℝ prim 1‖ ^ 2 = 3 / 4 * a ^ 2 := by
    rw [g1, norm_sub_sq_real, norm_smul, mul_pow, h0, h1, real_inner_smul_right, real_inner_comm, h01]
    norm_num
    ring
  constructor
  · intro i j hij
    obtain ⟨rfl, rfl⟩ : j = 0 ∧ i = 1 := by omega
    rw [g0, real_inner_comm, h01, h0, abs_of_nonneg (by positivity)]
  · intro k l hkl
    obtain ⟨rfl, rfl⟩ : k = 0 ∧ l = 1 := by omega
    rw [n1, g0, h0]
    norm_num
    nlinarith

end

/-- `square(a)` (l.743-745) -/
noncomputable def squareVecs (a : ℝ) : Fin 2 → E2 := ![!₂[a, 0], !₂[0, a]]

/-- `triangular(a)` (l.755-759): `a * tri` -/
noncomputable def triVecs (a : ℝ) : Fin 2 → E2 := ![!₂[a, 0], !₂[a * 0.5, a * (0.5 * Real.sqrt 3)]]

/-- **C102**: for the square lattices the flood fill moves to all the neighbors. -/
theorem C102_square {a : ℝ} (ha : a ≠ 0) : LinearIndependent ℝ (squareVecs a) ∧ SizeReduced (squareVecs a) ∧ CReduced 1.34 (squareVecs a) := by
  refine ⟨?_, orth_reduced ha (fun i => ?_) fun i j hij => ?_⟩
  · rw [squareVecs, LinearIndependent.pair_iff]
    intro s t h
    have h0 := congrArg (fun v : E2 => v 0) h
    have h1 := congrArg (fun v : E2 => v 1) h
    simp [ha] at h0 h1
    exact ⟨h0, h1⟩
  · rw [EuclideanSpace.norm_sq_eq]
    fin_cases i <;> simp [squareVecs, Fin.sum_univ_two]
  · fin_cases i <;> fin_cases j <;> simp_all [squareVecs, PiLp.inner_apply, Fin.sum_univ_two]

/-- **C102**: and for the triangular ones. -/
theorem C102_triangular {a : ℝ} (ha : a ≠ 0) : LinearIndependent ℝ (triVecs a) ∧ SizeReduced (triVecs a) ∧ CReduced 1.34 (triVecs a) := by
  have h3 : Real.sqrt 3 ^ 2 = 3 := Real.sq_sqrt (by norm_num)
  have h3' : Real.sqrt 3 ≠ 0 := by positivity
  refine ⟨?_, tri_reduced ha ?_ ?_ ?_⟩
  · rw [triVecs, LinearIndependent.pair_iff]
    intro s t h
    have h0 := congrArg (fun v : E2 => v 0) h
    have h1 := congrArg (fun v : E2 => v 1) h
    simp [ha] at h0 h1
    have ht : t = 0 := by
      rcases h1 with h | h
      · exact h
      · norm_num at h
    subst ht
    simp [ha] at h0
    exact ⟨h0, rfl⟩
  · rw [EuclideanSpace.norm_sq_eq]
    simp [triVecs, Fin.sum_univ_two]
  · rw [EuclideanSpace.norm_sq_eq]
    simp [triVecs, Fin.sum_univ_two]
    rw [mul_pow, mul_pow, mul_pow, h3]
    norm_num
    ring
  · simp [triVecs, PiLp.inner_apply, Fin.sum_univ_two]
    norm_num
    ring

end Kwant.Lat
