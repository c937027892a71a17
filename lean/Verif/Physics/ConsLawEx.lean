import Verif.Physics.ConsLawMain
import Mathlib.Analysis.Matrix.Spectrum
import Mathlib.Data.Fin.Tuple.Sort
import Mathlib.Algebra.Order.Round

/-!
C185: the contracts can be met, an example, and a law with a non-integer eigenvalue that is accepted.
-/

set_option linter.unusedSectionVars false

namespace Kwant.ConsLaw
open Matrix Complex Kwant.DiscSym

/-- Ascending eigenvalues and eigenvectors exist. -/
theorem eigh_exists {k : ℕ} (a : Matrix (Fin k) (Fin k) ℂ) (h : a.IsHermitian) :
    ∃ (w : Fin k → ℝ) (v : Matrix (Fin k) (Fin k) ℂ), Monotone w ∧ vᴴ * v = 1 ∧ a * v = v * diagonal fun j => (w j : ℂ) := by
  let σ := Tuple.sort h.eigenvalues
  let U : Matrix (Fin k) (Fin k) ℂ := h.eigenvectorUnitary
  have hU : Uᴴ * U = 1 := Matrix.mem_unitaryGroup_iff'.mp h.eigenvectorUnitary.2
  refine ⟨h.eigenvalues ∘ σ, U.submatrix id σ, Tuple.monotone_sort _, ?_, ?_⟩
  · have : (U.submatrix id σ)ᴴ * U.submatrix id σ = (Uᴴ * U).submatrix σ σ := by
      rw [conjTranspose_submatrix]
      rfl
    rw [this, hU]
    exact submatrix_one_equiv σ
  · have hs : a * U = U * diagonal (fun j => (h.eigenvalues j : ℂ)) := by
      have h2 : a = U * diagonal (fun j => (h.eigenvalues j : ℂ)) * Uᴴ := h.spectral_theorem
      conv_lhs => rw [h2]
      rw [Matrix.mul_assoc, hU, Matrix.mul_one]
    ext i j
    have := congrFun (congrFun hs i) (σ j)
    rw [mul_diagonal] at this ⊢
    exact this

open Classical in
/-- A function like `eigh`. -/
noncomputable def exEigh {k : ℕ} (a : Matrix (Fin k) (Fin k) ℂ) : (Fin k → ℝ) × Matrix (Fin k) (Fin k) ℂ :=
  if h : a.IsHermitian then ((eigh_exists a h).choose, (eigh_exists a h).choose_spec.choose) else (0, 1)

theorem exEigh_ok {k : ℕ} (a : Matrix (Fin k) (Fin k) ℂ) (h : a.IsHermitian) :
    Monotone (exEigh a).1 ∧ (exEigh a).2ᴴ * (exEigh a).2 = 1 ∧ a * (exEigh a).2 = (exEigh a).2 * diagonal fun j => ((exEigh a).1 j : ℂ) := by
  unfold exEigh
  rw [dif_pos h]
  exact (eigh_exists a h).choose_spec.choose_spec

/-- Functions that satisfy the contracts. -/
noncomputable def exNum : Num where
  eigh _ a := exEigh a
  eigvalsh _ a := (exEigh a).1
  rnd := round

theorem exNum_ok : NumOk exNum where
  ascending _ a h := (exEigh_ok a h).1
  unitary _ a h := (exEigh_ok a h).2.1
  eig _ a h := (exEigh_ok a h).2.2
  ascending' _ a h := (exEigh_ok a h).1
  eig' _ a h := ⟨_, (exEigh_ok a h).2⟩
  round x := abs_sub_round x

/-- Spin and a spinless site: two sites with two orbitals and one, the law is σ_x on the first and 1 on the second. -/
def exLaw : Law 2 := .func ![.mat 2 !![0, 1; 1, 0], .scalar 1]

/-- The blocks of the example. -/
def exQ : ∀ i : Fin 2, Matrix (Fin (![2, 1] i)) (Fin (![2, 1] i)) ℂ
  | 0 => (!![0, 1; 1, 0] : Matrix (Fin 2) (Fin 2) ℂ)
  | 1 => (1 : Matrix (Fin 1) (Fin 1) ℂ)

theorem exLaw_ok : IsLaw ![2, 1] exLaw exQ where
  at_site i := by
    fin_cases i
    · right; exact ⟨(!![0, 1; 1, 0] : Matrix (Fin 2) (Fin 2) ℂ), rfl, rfl⟩
    · left
      refine ⟨1, rfl, rfl, ?_⟩
      show (1 : Matrix (Fin 1) (Fin 1) ℂ) = fun _ _ => 1
      ext a b
      fin_cases a; fin_cases b; rfl
  herm i := by
    fin_cases i
    · show (!![0, 1; 1, 0] : Matrix (Fin 2) (Fin 2) ℂ)ᴴ = _
      ext a b
      fin_cases a <;> fin_cases b <;> simp [exQ, conjTranspose_apply]
    · show (1 : Matrix (Fin 1) (Fin 1) ℂ)ᴴ = _
      rw [conjTranspose_one]; rfl

theorem exQ_sq : blockDiag exQ * blockDiag exQ = 1 := by
  rw [blockDiag_mul, ← blockDiag_one]
  congr 1
  funext i
  fin_cases i
  · have : (!![0, 1; 1, 0] : Matrix (Fin 2) (Fin 2) ℂ) * !![0, 1; 1, 0] = 1 := by
      ext a b
      fin_cases a <;> fin_cases b <;> simp [Matrix.mul_apply, Fin.sum_univ_two]
    exact this
  · exact Matrix.one_mul (1 : Matrix (Fin 1) (Fin 1) ℂ)

/-- The hypotheses of `C185_integer` hold for the example. -/
theorem exQ_int (x : ℝ) (h : IsEig (blockDiag exQ) x) : ∃ z : ℤ, x = z := by
  obtain ⟨v, hv, he⟩ := h
  have h1 : blockDiag exQ *ᵥ (blockDiag exQ *ᵥ v) = v := by rw [mulVec_mulVec, exQ_sq, one_mulVec]
  rw [he, mulVec_smul, he, smul_smul] at h1
  obtain ⟨i, hi⟩ : ∃ i, v i ≠ 0 := by
    by_contra hc
    push Not at hc
    exact hv (funext hc)
  have h2 := congrFun h1 i
  rw [Pi.smul_apply, smul_eq_mul] at h2
  have h3 : (x : ℂ) * x = 1 := by
    have : ((x : ℂ) * x - 1) * v i = 0 := by rw [sub_mul, h2, one_mul, sub_self]
    rcases mul_eq_zero.mp this with h4 | h4
    · exact sub_eq_zero.mp h4
    · exact absurd h4 hi
  have h4 : x * x = 1 := by exact_mod_cast h3
  rcases mul_self_eq_one_iff.mp h4 with h5 | h5
  · exact ⟨1, by simpa using h5⟩
  · exact ⟨-1, by simpa using h5⟩

example : ∃ ps charges, projectors exNum ![2, 1] exLaw = .ok ps ∧ Decomposes (blockDiag exQ) round charges ps := by
  obtain ⟨ps, charges, h1, h2, -⟩ := C185_integer exNum_ok exLaw_ok exQ_int
  exact ⟨ps, charges, h1, h2⟩

/-- The law with the one-orbital value 60000.25. -/
noncomputable def bigLaw : Law 1 := .func fun _ => .scalar (60000 + 1 / 4)

theorem bigLaw_ok : IsLaw (fun _ => 1) bigLaw (fun _ => diagonal fun _ => (60000 + 1 / 4 : ℂ)) where
  at_site i := by
    left
    refine ⟨60000 + 1 / 4, rfl, rfl, ?_⟩
    ext a b
    have : a = b := Subsingleton.elim _ _
    subst this
    rw [diagonal_apply_eq]
  herm i := by
    ext a b
    have : a = b := Subsingleton.elim _ _
    subst this
    rw [conjTranspose_apply, diagonal_apply_eq]
    simp

theorem big_diag : blockDiag (norbs := fun _ : Fin 1 => 1) (fun _ => diagonal fun _ => (60000 + 1 / 4 : ℂ)) = (60000 + 1 / 4 : ℂ) • (1 : Mat _) := by
  have := blockDiag_diagonal (norbs := fun _ : Fin 1 => 1) fun _ _ => (60000 + 1 / 4 : ℝ)
  push_cast at this
  rw [this]
  ext a b
  by_cases h : a = b
  · subst h; simp
  · rw [diagonal_apply_ne _ h, Matrix.smul_apply, one_apply_ne h, smul_zero]

/-- **C185, the limit of the check**: because the tolerance of `np.allclose` is relative, a conservation law with the only eigenvalue 60000.25 is accepted, although
"Conservation law must have integer eigenvalues". -/
theorem C185_counterexample : (∃ ps, projectors exNum (fun _ : Fin 1 => 1) bigLaw = .ok ps) ∧
    ∃ x, IsEig (blockDiag (norbs := fun _ : Fin 1 => 1) fun _ => diagonal fun _ => (60000 + 1 / 4 : ℂ)) x ∧ ¬ ∃ z : ℤ, x = z := by
  have hr : round (60000 + 1 / 4 : ℝ) = 60000 := by
    rw [round_eq, Int.floor_eq_iff]
    norm_num
  constructor
  · cases hp : projectors exNum (fun _ : Fin 1 => 1) bigLaw with
    | ok ps => exact ⟨ps, rfl⟩
    | error e =>
      exfalso
      cases e with
      | bad => exact (C185_refused exNum_ok bigLaw_ok).2 hp
      | notInteger =>
        obtain ⟨x, ⟨v, hv, he⟩, hl⟩ := (C185_refused exNum_ok bigLaw_ok).1.mp hp
        rw [big_diag, smul_mulVec, one_mulVec] at he
        obtain ⟨i, hi⟩ : ∃ i, v i ≠ 0 := by
          by_contra hc
          push Not at hc
          exact hv (funext hc)
        have h2 := congrFun he i
        rw [Pi.smul_apply, Pi.smul_apply, smul_eq_mul, smul_eq_mul] at h2
        have h3 := mul_right_cancel₀ hi h2
        have h4 : x = 60000 + 1 / 4 := by
          have : ((60000 + 1 / 4 : ℝ) : ℂ) = x := by push_cast; exact h3
          exact_mod_cast this.symm
        have h5 : exNum.rnd x = 60000 := by rw [h4]; exact hr
        rw [h5, h4] at hl
        norm_num [abs_of_pos] at hl
  · refine ⟨60000 + 1 / 4, ⟨fun _ => 1, ?_, ?_⟩, ?_⟩
    · intro h
      have := congrFun h ⟨0, by simp⟩
      simp at this
    · rw [big_diag, smul_mulVec, one_mulVec]
      push_cast; rfl
    · rintro ⟨z, hz⟩
      have h1 : ((240001 : ℤ) : ℝ) = ((4 * z : ℤ) : ℝ) := by push_cast; rw [← hz]; norm_num
      have h2 : (240001 : ℤ) = 4 * z := by exact_mod_cast h1
      omega

end Kwant.ConsLaw
