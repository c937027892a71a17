import Verif.Leads.SelfEnergy
import Verif.Leads.BlochEx

/-!
Example for C110 and C111: two uncoupled chains, one with a propagating mode and one with an evanescent mode.
-/

set_option linter.unusedSectionVars false

namespace Kwant.Leads
open Matrix Complex

noncomputable def ex2H : Matrix (Fin 2) (Fin 2) ℂ := diagonal ![0, 5 / 2]
noncomputable def ex2Svd : Svd 2 := ⟨1, fun _ => 1, 1⟩

theorem ex2Svd_ok : SvdOk 1 ex2Svd := by
  refine ⟨by simp [ex2Svd], by simp [ex2Svd], by simp [ex2Svd], by simp [ex2Svd], ?_⟩
  intro i j _
  simp [ex2Svd]

theorem ex2Cut : CutExact (exNum ex2Svd) 1 := by
  intro i hi
  norm_num [exNum, ex2Svd] at hi

theorem ex2Setup : setupLinsys (exNum ex2Svd) ex2H 1 none = .ok (linsysReg (exNum ex2Svd) ex2H 1) := by
  rw [setupLinsys, if_neg one_ne_zero]
  dsimp only
  rw [if_pos]
  refine ⟨?_, rfl⟩
  have : (Finset.univ.filter fun i : Fin 2 => (ex2Svd).s i > (exNum ex2Svd).eps * ex2Svd.s ⟨0, i.pos⟩) = Finset.univ := by
    ext i
    norm_num [exNum, ex2Svd]
  change nNonsing (exNum ex2Svd) ex2Svd.s = 2
  rw [nNonsing, this]
  rfl

/-- `sqrt(norm(h_hop))` -/
noncomputable def exB : ℂ := ((Real.sqrt (frob (1 : Matrix (Fin 2) (Fin 2) ℂ)) : ℝ) : ℂ)

theorem exB_ne : exB ≠ 0 := by
  rw [exB, Complex.ofReal_ne_zero]
  exact (Real.sqrt_pos.mpr (frob_pos one_ne_zero)).ne'

theorem exB_star : (starRingEnd ℂ) exB = exB := by rw [exB, Complex.conj_ofReal]

noncomputable def exS2 : ℂ := ((Real.sqrt 2 : ℝ) : ℂ)⁻¹

theorem exS2_sq : exS2 * exS2 = 1 / 2 := by
  rw [exS2, ← mul_inv, sqrt_mul_sqrt_complex (by norm_num)]
  norm_num

theorem exS2_ne : exS2 ≠ 0 := by
  intro h
  have := exS2_sq
  rw [h] at this
  norm_num at this

theorem exS2_star : (starRingEnd ℂ) exS2 = exS2 := by rw [exS2, map_inv₀, Complex.conj_ofReal]

/-- The first half of the outgoing modes. -/
noncomputable def exX : Matrix (Fin 2) (Fin 1 ⊕ Fin 1) ℂ := of fun i c => match c with
  | .inl _ => if i = 0 then exB * exS2 else 0
  | .inr _ => if i = 1 then exB else 0

/-- The second half of the outgoing modes. -/
noncomputable def exY : Matrix (Fin 2) (Fin 1 ⊕ Fin 1) ℂ := of fun i c => match c with
  | .inl _ => if i = 0 then exB⁻¹ * (-I) * exS2 else 0
  | .inr _ => if i = 1 then exB⁻¹ * (-1 / 2) else 0

noncomputable def exXi : Matrix (Fin 1 ⊕ Fin 1) (Fin 2) ℂ := of fun c i => match c with
  | .inl _ => if i = 0 then (exB * exS2)⁻¹ else 0
  | .inr _ => if i = 1 then exB⁻¹ else 0

noncomputable def exStab : StabModes 2 2 1 1 :=
  ⟨of fun i c => match c with | .inl (.inl j) => 0 | .inl (.inr j) => exY i (.inl j) | .inr j => exY i (.inr j),
   of fun i c => match c with | .inl (.inl j) => 0 | .inl (.inr j) => exX i (.inl j) | .inr j => exX i (.inr j), exB • 1⟩

theorem exPencil {K : Type} [Fintype K] [DecidableEq K] (x1 x2 : Matrix (Fin 2) K ℂ) (S T : Matrix K K ℂ) (Ψ : Matrix (Fin 2) K ℂ)
    (h1 : x1 * S = exB • Ψ) (h2 : x2 * T = exB⁻¹ • Ψ) (h3 : ex2H * Ψ + exB • (x2 * S) + exB⁻¹ • (x1 * T) = 0) :
    (linsysReg (exNum ex2Svd) ex2H 1).Pencil (fromRows x1 x2 : Matrix (Fin 2 ⊕ Fin 2) K ℂ) S T := by
  have hf := faithful_reg (exNum ex2Svd) ex2H (hop := 1) (exNum_ok ex2Svd_ok) one_ne_zero (by simp)
  refine (hf.pencil x1 x2 S T).mpr ⟨Ψ, ?_, ?_, ?_⟩
  · change x1 * S = (exB • (1 : Matrix (Fin 2) (Fin 2) ℂ))ᴴ * Ψ
    rw [h1, conjTranspose_smul, conjTranspose_one, star_def, exB_star, Matrix.smul_mul, Matrix.one_mul]
  · change x2 * T = (exB⁻¹ • (1 : Matrix (Fin 2) (Fin 2) ℂ))ᴴ * Ψ
    rw [h2, conjTranspose_smul, conjTranspose_one, star_def, map_inv₀, exB_star, Matrix.smul_mul, Matrix.one_mul]
  · change ex2H * Ψ + (exB • (1 : Matrix (Fin 2) (Fin 2) ℂ)) * (x2 * S) + (exB⁻¹ • (1 : Matrix (Fin 2) (Fin 2) ℂ)) * (x1 * T) = 0
    rw [Matrix.smul_mul, Matrix.one_mul, Matrix.smul_mul, Matrix.one_mul]
    exact h3

theorem exOutgoing : Outgoing (linsysReg (exNum ex2Svd) ex2H 1) exX exY (fun _ => I) (of fun _ _ => -1 / 2) := by
  refine ⟨fun _ => by simp, ?_, fun _ => by rw [of_apply]; norm_num, ?_, ?_⟩
  · intro i j hij
    rw [Subsingleton.elim i j] at hij
    exact absurd hij (lt_irrefl _)
  · intro i
    rw [solution_iff]
    have hsplit : (of fun j _ => Sum.elim (fun k => exX k (.inl i)) (fun k => exY k (.inl i)) j : Matrix (Fin 2 ⊕ Fin 2) (Fin 1) ℂ) =
        fromRows (of fun j _ => exX j (.inl i)) (of fun j _ => exY j (.inl i)) := by
      ext a b
      rcases a with a | a <;> rfl
    have := exB_ne
    refine (congrArg (fun Z : Matrix (Fin 2 ⊕ Fin 2) (Fin 1) ℂ => (linsysReg (exNum ex2Svd) ex2H 1).Pencil Z _ _) hsplit).mpr
      (exPencil _ _ _ _ (of fun a _ => if a = 0 then exS2 else 0) ?_ ?_ ?_)
    · ext a b
      fin_cases a <;> fin_cases b <;> simp [exX, Matrix.mul_apply, one_apply]
    · ext a b
      fin_cases a <;> fin_cases b <;> simp [exY, Matrix.mul_apply, one_apply]
      linear_combination (-exB⁻¹ * exS2) * I_mul_I
    · ext a b
      fin_cases a <;> fin_cases b <;> simp [exX, exY, ex2H, Matrix.mul_apply, one_apply, diagonal_apply]
      field_simp
      ring
  · have := exB_ne
    refine exPencil (K := Fin 1) (exX.submatrix id Sum.inr) (exY.submatrix id Sum.inr) _ _ (of fun a _ => if a = 1 then -1 / 2 else 0) ?_ ?_ ?_
    · ext a b
      fin_cases a <;> fin_cases b <;> simp [exX, Matrix.mul_apply, one_apply]
    · ext a b
      fin_cases a <;> fin_cases b <;> simp [exY, Matrix.mul_apply, one_apply]
    · ext a b
      fin_cases a <;> fin_cases b <;> simp [exX, exY, ex2H, Matrix.mul_apply, one_apply, diagonal_apply]
      field_simp
      ring

theorem exX_out : exStab.vecslmbdainv.submatrix id outCols = exX := by
  ext a b
  rcases b with b | b <;> rfl

theorem exY_out : exStab.vecs.submatrix id outCols = exY := by
  ext a b
  rcases b with b | b <;> rfl

theorem exUnit : UnitCurrent exX exY (fun _ : Fin 1 => I) := by
  intro i j _
  have := exB_ne
  rw [if_pos (Subsingleton.elim i j)]
  simp only [current, Matrix.add_apply, Matrix.smul_apply, Matrix.mul_apply, conjTranspose_apply, Fin.sum_univ_two, exX, exY, of_apply, star_def, if_true,
    one_ne_zero, if_false, mul_zero, add_zero, smul_eq_mul, map_mul, map_neg, map_inv₀, conj_I, exB_star, exS2_star, Complex.conj_conj, neg_neg]
  field_simp
  have h2 := exS2_sq
  have hI := I_sq
  linear_combination (-2 * I ^ 2) * h2 - hI

theorem exX_Xi : exX * exXi = 1 := by
  have := exB_ne
  have := exS2_ne
  ext a b
  fin_cases a <;> fin_cases b <;> simp [exX, exXi, Matrix.mul_apply, Fintype.sum_sum_type]
  all_goals field_simp

theorem exXi_X : exXi * exX = 1 := by
  have := exB_ne
  have := exS2_ne
  ext a b
  rcases a with a | a <;> rcases b with b | b <;> fin_cases a <;> fin_cases b <;> simp [exX, exXi, Matrix.mul_apply]
  all_goals field_simp

open Classical in
noncomputable def exSolve : Solve (Fin 2) (Fin 1 ⊕ Fin 1) (Fin 2) := fun x b =>
  if h : ∃ xi : Matrix (Fin 1 ⊕ Fin 1) (Fin 2) ℂ, x * xi = 1 ∧ xi * x = 1 then h.choose * b else 0

theorem exSolve_ok : SolveOk exSolve := by
  intro x xi b h1 h2
  have h : ∃ xi : Matrix (Fin 1 ⊕ Fin 1) (Fin 2) ℂ, x * xi = 1 ∧ xi * x = 1 := ⟨xi, h1, h2⟩
  rw [exSolve, dif_pos h]
  have h3 := h.choose_spec
  congr 1
  calc h.choose = h.choose * (x * xi) := by rw [h1, Matrix.mul_one]
    _ = xi := by rw [← Matrix.mul_assoc, h3.2, Matrix.one_mul]

/-- All hypotheses of C110 and C111 hold in the example. -/
example : (∃ Φ, (-ex2H - selfenergy exSolve exStab) * Φ = 1 ∧ selfenergy exSolve exStab = 1ᴴ * Φ) ∧
    ∃ W : Matrix (Fin 2) (Fin 1) ℂ, I • (selfenergy exSolve exStab - (selfenergy exSolve exStab)ᴴ) = W * Wᴴ := by
  constructor
  · refine C110_dyson (exNum ex2Svd) (exNum_ok ex2Svd_ok) ex2Setup ex2Cut (by simp) exSolve_ok exStab rfl (lam := fun _ => I) (E := of fun _ _ => -1 / 2) ?_
      (Xi := exXi) ?_ ?_
    · exact (congrArg₂ (fun X Y : Matrix (Fin 2) (Fin 1 ⊕ Fin 1) ℂ => Outgoing (linsysReg (exNum ex2Svd) ex2H 1) X Y _ _) exX_out exY_out).mpr exOutgoing
    · exact (congrArg (fun X : Matrix (Fin 2) (Fin 1 ⊕ Fin 1) ℂ => X * exXi) exX_out).trans exX_Xi
    · exact (congrArg (fun X : Matrix (Fin 2) (Fin 1 ⊕ Fin 1) ℂ => exXi * X) exX_out).trans exXi_X
  · refine C111_broadening (exNum ex2Svd) (exNum_ok ex2Svd_ok) ?_ ex2Setup ex2Cut (by simp) exSolve_ok exStab (lam := fun _ => I) (E := of fun _ _ => -1 / 2) ?_ ?_
      (Xi := exXi) ?_ ?_
    · ext i j
      fin_cases i <;> fin_cases j <;> simp [ex2H]
    · exact (congrArg₂ (fun X Y : Matrix (Fin 2) (Fin 1 ⊕ Fin 1) ℂ => Outgoing (linsysReg (exNum ex2Svd) ex2H 1) X Y _ _) exX_out exY_out).mpr exOutgoing
    · exact (congrArg₂ (fun X Y : Matrix (Fin 2) (Fin 1 ⊕ Fin 1) ℂ => UnitCurrent X Y fun _ : Fin 1 => I) exX_out exY_out).mpr exUnit
    · exact (congrArg (fun X : Matrix (Fin 2) (Fin 1 ⊕ Fin 1) ℂ => X * exXi) exX_out).trans exX_Xi
    · exact (congrArg (fun X : Matrix (Fin 2) (Fin 1 ⊕ Fin 1) ℂ => exXi * X) exX_out).trans exXi_X

end Kwant.Leads
