import Verif.Solver.SciPy
import Verif.Solver.UnitaryEx

/-!
C201: the matrix that `smatrix` returns with the solver of SciPy is unitary (C112 for the data that is returned).
-/

set_option linter.unusedSectionVars false

namespace Kwant.Solver
open Finset Kwant.System Complex

/-- The returned array, with rows and columns labelled by the channels. -/
def returned (sys : SSys ℂ) (M : Mat ℂ) : Matrix (Channel sys) (Channel sys) ℂ := Matrix.of fun c d => M.val (chanPos sys c) (chanPos sys d)

theorem chanPos_lt (sys : SSys ℂ) (c : Channel sys) : chanPos sys c < (sys.leads.map Lead.nprop).sum := by
  unfold chanPos
  have hl := c.1.2
  have e : (sys.leads.map Lead.nprop).sum = ((sys.leads.take c.1).map Lead.nprop).sum + ((sys.leads.drop c.1).map Lead.nprop).sum := by
    rw [← List.sum_append, ← List.map_append, List.take_append_drop]
  rw [e, List.drop_eq_getElem_cons hl, List.map_cons, List.sum_cons]
  have := c.2.2
  have h2 : (sys.leads[c.1] : Lead ℂ).nprop = (sys.leads[(c.1 : ℕ)]'hl).nprop := rfl
  omega

theorem range_modes (sys : SSys ℂ) : ((List.range sys.leads.length).map (modesOf sys)).sum = (sys.leads.map Lead.nprop).sum := by
  congr 1
  apply List.ext_getElem (by simp)
  intro k h1 h2
  simp only [List.length_map] at h2
  simp [modesOf, List.getElem?_eq_getElem h2]

/-- **C201 (unitarity).** For a Hermitian Hamiltonian, real energy and modes that carry unit current, the array that `smatrix` returns for all leads is square and unitary. -/
theorem C201_unitary {S : SuperLU ℂ} {junk : ℕ → ℂ} {sys : SSys ℂ} (hok : SysOk sys) (hH : HermHam sys.ham) {E : ℝ} (hcur : ∀ l ∈ sys.leads, l.hasModes → CurrentOk l.modes)
    {check : Bool} {M : Mat ℂ} (h : smatrixData S junk sys (E : ℂ) none none check = .ok M) :
    M.rows = (sys.leads.map Lead.nprop).sum ∧ M.cols = (sys.leads.map Lead.nprop).sum ∧
      (returned sys M).conjTranspose * returned sys M = 1 ∧ returned sys M * (returned sys M).conjTranspose = 1 := by
  obtain ⟨r1, r2, -⟩ := C201_smatrix hok (.inr rfl) h
  rw [Option.getD_none, range_modes] at r1 r2
  refine ⟨r1, r2, ?_⟩
  unfold smatrixData at h
  rcases hs : smatrixSetup sys (E : ℂ) none none check with e | ⟨ls, kv, o, i⟩
  · rw [hs] at h; cases h
  rw [hs] at h
  obtain ⟨h1, h2, h3⟩ := blockData_ok h
  rcases h3 with h3 | ⟨f, hf, h3⟩
  · have hz : (sys.leads.map Lead.nprop).sum = 0 := by
      rcases h3 with h3 | h3
      · rw [← r2, h2, h3]
      · rw [← r1, h1, h3]
    have hempty : IsEmpty (Channel sys) := ⟨fun c => by have := chanPos_lt sys c; omega⟩
    exact ⟨Subsingleton.elim _ _, Subsingleton.elim _ _⟩
  · have e : returned sys M = smat sys kv (solution S junk f ls) := by
      ext c d
      have hc : chanPos sys c < kv.length := by rw [← h1, r1]; exact chanPos_lt sys c
      have hd : chanPos sys d < (ls.rhs.map Mat.cols).sum := by rw [← h2, r2]; exact chanPos_lt sys d
      refine (h3 _ hc _ hd).trans ?_
      unfold smat
      rw [Matrix.of_apply, List.getD_eq_getElem _ _ hc]
    rw [e]
    exact C112_unitary hok hH hcur hs (solution_solves S junk f ls hf)

/-! ## Example -/

/-- The inverse of the linear system of `unitSys`. -/
noncomputable def unitInv (κ σ : ℕ) : ℂ :=
  if κ = 0 then (if σ = 0 then I / 2 else 1 / 2) else if σ = 0 then uc else if κ = σ then I * uc else -I * uc

/-- The hypotheses of `C201_unitary` can be met: a site between two chains has a scattering matrix of size 2. -/
theorem C201_unitary_example : SysOk unitSys ∧ HermHam unitSys.ham ∧ (∀ l ∈ unitSys.leads, l.hasModes → CurrentOk l.modes) ∧
    ∃ M, smatrixData (fixedLU 3 unitInv) (fun _ => 7) unitSys ((0 : ℝ) : ℂ) none none false = .ok M ∧ M.rows = 2 := by
  refine ⟨unitSys_ok, ?_, ?_, ?_⟩
  · intro α _ β _
    simp [unitSys]
  · intro l hl _
    simp only [unitSys, List.mem_cons, List.not_mem_nil, or_false] at hl
    rcases hl with rfl | rfl <;> exact unitLead_current
  · obtain ⟨ls, kv, o, i, hs, h1, h2, h3, h4, h5⟩ : ∃ ls kv o i, smatrixSetup unitSys ((0 : ℝ) : ℂ) none none false = .ok (ls, kv, o, i) ∧ ls.lhs.rows = 3 ∧ ls.lhs.cols = 3 ∧
        (∀ ρ < 3, ∀ σ < 3, ∑ κ ∈ range 3, ls.lhs.val ρ κ * unitInv κ σ = if ρ = σ then 1 else 0) ∧ (ls.rhs.map Mat.cols).sum = 2 ∧ kv.length = 2 := by
      refine ⟨_, _, _, _, rfl, rfl, rfl, ?_, rfl, rfl⟩
      intro ρ hρ σ hσ
      have h1 := uc_sq
      interval_cases ρ <;> interval_cases σ
      all_goals simp [extend, hamMinusE, unitSys, unitLead, transfVu, vSp, vu, transf, offsets, cumsum, Modes.nout, Finset.sum_range_succ, unitInv, Finset.filter_singleton]
      all_goals first
        | linear_combination 2 * h1
        | linear_combination (-I) * h1
        | linear_combination (-(uc * uc)) * I_sq + h1
        | linear_combination (uc * uc) * I_sq - h1
    have hf : (fixedLU 3 unitInv).factor ls.lhs = some () := if_pos ⟨h1, h2, h3⟩
    refine ⟨solveLinearSys (fixedLU 3 unitInv) (fun _ => 7) () (stack ls) kv, ?_, (solveLinearSys_val _ _ _ _ _).1.trans h5⟩
    simp only [smatrixData, hs, blockData, h4, h5, hf]
    norm_num

end Kwant.Solver
