import Verif.Linalg.SchurEvecsMain
import Verif.Linalg.GenSchurEx

/-! # A concrete case for C164 and C165 -/

set_option linter.unusedSectionVars false

namespace Kwant.Schur

open Matrix

/-- LAPACK's routine for the rotation `exS`: the vector `(1, -i)` of the eigenvalue `i` is
stored in two columns. -/
noncomputable def exX : Xevc where
  run select :=
    let v : Arr ℝ := fun r c => if r = 0 ∧ c = 0 then 1 else if r = 1 ∧ c = 1 then -1 else 0
    (v, v, match select with
      | none => 2
      | some sel => if sel 0 || sel 1 then 2 else 0)

/-- The eigenvalues `i` and `-i`. -/
noncomputable def exW : ℕ → ℂ := fun k => if k = 0 then Complex.I else -Complex.I

theorem mat_exOne : mat 2 exOne = 1 := by
  ext a b
  fin_cases a <;> fin_cases b <;> simp [mat, exOne]

theorem exOne_orth : mat 2 exOne ∈ orthogonalGroup (Fin 2) ℝ := by
  rw [mat_exOne]
  exact one_mem _

theorem exS_packed (sel : ℕ → Bool) (P : ℕ → Col → Prop) (h : P 0 (fun r =>
      ((if r = 0 then 1 else 0 : ℝ) : ℂ) + Complex.I * ((if r = 1 then -1 else 0 : ℝ) : ℂ))) :
    Packed 2 exS sel P
      (fun r c => if r = 0 ∧ c = 0 then 1 else if r = 1 ∧ c = 1 then -1 else 0) := by
  constructor
  · intro k h1 _ h3 h4
    exfalso
    interval_cases k
    · simpa [exS] using h3 (by norm_num)
    · simpa [exS] using h4 0 rfl
  · intro i h1 _ _
    obtain rfl : i = 0 := by omega
    simpa [store] using h

theorem exS_num (sel : ℕ → Bool) : store 2 exS sel 2 = if sel 0 || sel 1 then 2 else 0 := by
  simp [store, Finset.sum_range_succ, width, exS]

theorem exX_left : LeftEig (mat 2 exS) Complex.I (fun r =>
      ((if r = 0 then 1 else 0 : ℝ) : ℂ) + Complex.I * ((if r = 1 then -1 else 0 : ℝ) : ℂ)) := by
  constructor
  · intro e
    simpa [Col.vec] using congrFun e 0
  · funext a
    fin_cases a <;> simp [Col.vec, Matrix.vecMul, dotProduct, mat, exS, Fin.sum_univ_two]

theorem exX_right : RightEig (mat 2 exS) Complex.I (fun r =>
      ((if r = 0 then 1 else 0 : ℝ) : ℂ) + Complex.I * ((if r = 1 then -1 else 0 : ℝ) : ℂ)) := by
  constructor
  · intro e
    simpa [Col.vec] using congrFun e 0
  · funext a
    fin_cases a <;> simp [Col.vec, Matrix.mulVec, dotProduct, mat, exS, Fin.sum_univ_two]

theorem exS_real : RealSchur 2 exS := by
  constructor
  · intro r c h1 h2; omega
  · intro i h; omega
  · intro i h _
    obtain rfl : i = 0 := by omega
    simp [exS]
  · intro i h _
    obtain rfl : i = 0 := by omega
    simp [exS]

theorem exX_trevc : TrevcOK 2 exS exOne exW exX := by
  have e : mat 2 exOne * mat 2 exS * (mat 2 exOne)ᵀ = mat 2 exS := by simp [mat_exOne]
  refine ⟨?_, ?_, ?_, ?_, ?_, ?_⟩
  · intro sel; exact exS_packed sel _ exX_left
  · intro sel; exact exS_packed sel _ exX_right
  · intro sel; rw [exS_num]; rfl
  · rw [e]; exact exS_packed _ _ exX_left
  · rw [e]; exact exS_packed _ _ exX_right
  · rw [exS_num]; rfl

theorem exW_eig : EigList 2 exS exW := by
  constructor
  · intro k h1 h3 h4
    exfalso
    interval_cases k
    · simpa [exS] using h3 (by norm_num)
    · simpa [exS] using h4 0 rfl
  · intro i h _
    obtain rfl : i = 0 := by omega
    simp [exS, exW]
  · intro i h _
    obtain rfl : i = 0 := by omega
    simp [exW]
  · intro i h _
    obtain rfl : i = 0 := by omega
    simp [exW]

theorem gEig_of_one {A : Matrix (Fin 2) (Fin 2) ℝ} {w : ℂ} {x : Col} (h : RightEig A w x) :
    RightGEig A 1 w 1 x := by
  refine ⟨h.1, ?_⟩
  have one : (1 : Matrix (Fin 2) (Fin 2) ℝ).map (fun x : ℝ => (x : ℂ)) = 1 := by
    ext a b
    by_cases h : a = b <;> simp [Matrix.one_apply, h]
  rw [one, Matrix.one_mulVec, one_smul]
  exact h.2

theorem gEigL_of_one {A : Matrix (Fin 2) (Fin 2) ℝ} {w : ℂ} {x : Col} (h : LeftEig A w x) :
    LeftGEig A 1 w 1 x := by
  refine ⟨h.1, ?_⟩
  have one : (1 : Matrix (Fin 2) (Fin 2) ℝ).map (fun x : ℝ => (x : ℂ)) = 1 := by
    ext a b
    by_cases h : a = b <;> simp [Matrix.one_apply, h]
  rw [one, Matrix.vecMul_one, one_smul]
  exact h.2

theorem exX_tgevc : TgevcOK 2 exS exOne exOne exOne exW (fun _ => 1) exX := by
  have e : mat 2 exOne * mat 2 exS * (mat 2 exOne)ᵀ = mat 2 exS := by simp [mat_exOne]
  have e1 : (1 : Matrix (Fin 2) (Fin 2) ℝ) * 1 * 1ᵀ = 1 := by simp
  refine ⟨?_, ?_, ?_, ?_, ?_, ?_⟩
  · intro sel; rw [mat_exOne]; exact exS_packed sel _ (gEigL_of_one exX_left)
  · intro sel; rw [mat_exOne]; exact exS_packed sel _ (gEig_of_one exX_right)
  · intro sel; rw [exS_num]; rfl
  · rw [e, mat_exOne, e1]; exact exS_packed _ _ (gEigL_of_one exX_left)
  · rw [e, mat_exOne, e1]; exact exS_packed _ _ (gEig_of_one exX_right)
  · rw [exS_num]; rfl

/-- C164 applies to the rotation; selecting only the second eigenvalue `-i`
gives one right vector, an eigenvector of the rotation for `-i`. -/
theorem C164_example : ∃ vl x, evecsFromSchur exX 2 exS exOne (some (fun k => k == 1)) =
    some (vl, [x]) ∧ RightEig (mat 2 exS) (-Complex.I) x := by
  obtain ⟨vl, vr, e, _, R⟩ := C164_evecs exS exOne exW exS_real exOne_orth exW_eig exX exX_trevc
    (some (fun k => k == 1))
  have f : (List.range 2).filter (selOf (some (fun k => k == 1))) = [1] := by decide
  have e2 : mat 2 exOne * mat 2 exS * (mat 2 exOne)ᵀ = mat 2 exS := by simp [mat_exOne]
  rw [f, e2] at R
  cases R with
  | cons h t =>
    cases t
    exact ⟨vl, _, e, by simpa [exW] using h⟩

theorem exW_geig : GEigList 2 exS exOne exW (fun _ => 1) := by
  constructor
  · intro k h1 h3 h4
    exfalso
    interval_cases k
    · simpa [exS] using h3 (by norm_num)
    · simpa [exS] using h4 0 rfl
  · intros; norm_num
  · intros; norm_num
  · intro i h _
    obtain rfl : i = 0 := by omega
    simp [exS, exOne, exW, pdet]
  · intro i h _
    obtain rfl : i = 0 := by omega
    simp [exW]
  · intro i h _
    obtain rfl : i = 0 := by omega
    simp [exW]

/-- C165 applies to the same matrix as a pencil. -/
theorem C165_example : ∃ vl x, evecsFromGenSchur exX 2 exS exOne exOne (some (fun k => k == 1)) =
    some (vl, [x]) ∧ RightGEig (mat 2 exS) 1 (-Complex.I) 1 x := by
  obtain ⟨vl, vr, e, _, R⟩ := C165_evecs exS exOne exOne exOne exW (fun _ => 1) exS_schur
    exOne_orth exOne_orth exW_geig exX exX_tgevc (some (fun k => k == 1))
  have f : (List.range 2).filter (selOf (some (fun k => k == 1))) = [1] := by decide
  have e2 : mat 2 exOne * mat 2 exS * (mat 2 exOne)ᵀ = mat 2 exS := by simp [mat_exOne]
  have e1 : (1 : Matrix (Fin 2) (Fin 2) ℝ) * 1 * 1ᵀ = 1 := by simp
  rw [f, e2, mat_exOne, e1] at R
  cases R with
  | cons h t =>
    cases t
    exact ⟨vl, _, e, by simpa [exW] using h⟩

end Kwant.Schur
