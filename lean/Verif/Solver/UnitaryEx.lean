import Verif.Solver.Unitary
import Mathlib.Analysis.SpecialFunctions.Pow.NNReal
import Mathlib.Tactic.IntervalCases
import Mathlib.Tactic.FinCases

/-!
Example for C112: one site between two chains, at the energy in the middle of the band.
-/

set_option linter.unusedSectionVars false

namespace Kwant.Solver
open Finset Kwant.System Complex

/-- `1/sqrt(2)` -/
noncomputable def uc : ℂ := ((Real.sqrt 2 : ℝ) : ℂ)⁻¹

theorem uc_sq : uc * uc = 1 / 2 := by
  rw [uc, ← mul_inv, ← Complex.ofReal_mul, Real.mul_self_sqrt (by norm_num)]
  norm_num

theorem uc_star : (starRingEnd ℂ) uc = uc := by rw [uc, map_inv₀, Complex.conj_ofReal]

/-- The normalized modes of a chain with hopping 1 at zero energy. -/
noncomputable def unitLead : Lead ℂ :=
  ⟨false, ⟨1, 1, fun _ _ => 0⟩, ⟨⟨1, 2, fun _ _ => uc⟩, ⟨1, 2, fun _ k => if k = 0 then -I * uc else I * uc⟩, 1, ⟨1, 1, fun _ _ => 1⟩⟩, [0]⟩

noncomputable def unitSys : SSys ℂ := ⟨⟨1, 1, fun _ _ => 0⟩, [1], [unitLead, unitLead]⟩

theorem unitSys_ok : SysOk unitSys := by
  refine ⟨rfl, rfl, ?_, ?_⟩
  · intro l hl
    simp only [unitSys, List.mem_cons, List.not_mem_nil, or_false] at hl
    rcases hl with rfl | rfl <;> simp [unitLead, unitSys]
  · intro l hl hm
    simp only [unitSys, List.mem_cons, List.not_mem_nil, or_false] at hl
    rcases hl with rfl | rfl
    · exact ⟨by simp [unitLead], rfl⟩
    · exact ⟨by simp [unitLead], rfl⟩

theorem unitLead_current : CurrentOk unitLead.modes := by
  refine ⟨by simp [unitLead], ?_⟩
  have h1 := uc_sq
  intro a ha b hb
  change a < 2 at ha
  change b < 2 at hb
  interval_cases a <;> interval_cases b <;> simp [unitLead, uc_star]
  · linear_combination 2 * uc * uc * I_sq - 2 * h1
  · ring
  · ring
  · linear_combination (-2) * uc * uc * I_sq + 2 * h1

/-- The solution: everything is transmitted. -/
noncomputable def unitX : ℕ → ℕ → ℂ := fun κ c => if κ = 0 then -I * uc else if κ = c + 1 then 0 else -1

/-- The hypotheses of C112 are met, with a nontrivial scattering matrix. -/
theorem C112_example : ∃ ls kv o i, smatrixSetup unitSys ((0 : ℝ) : ℂ) none none false = .ok (ls, kv, o, i) ∧ Solves ls unitX ∧ HermHam unitSys.ham ∧
    (∀ l ∈ unitSys.leads, l.hasModes → CurrentOk l.modes) ∧ smat unitSys kv unitX ⟨⟨0, Nat.zero_lt_two⟩, ⟨0, Nat.one_pos⟩⟩ ⟨⟨1, Nat.one_lt_two⟩, ⟨0, Nat.one_pos⟩⟩ = -1 := by
  refine ⟨_, _, _, _, rfl, ?_, ?_, ?_, ?_⟩
  · intro c hc ρ hρ
    change c < 2 at hc
    change ρ < 3 at hρ
    have h1 := uc_sq
    interval_cases c <;> interval_cases ρ
    all_goals simp [mulVec, extend, hamMinusE, unitSys, unitLead, rhsCol, resize, transfVu, vSp, vu, transf, offsets, cumsum, Modes.nout, Finset.sum_range_succ, unitX,
      Finset.filter_singleton]
  · intro α _ β _
    simp [unitSys]
  · intro l hl _
    simp only [unitSys, List.mem_cons, List.not_mem_nil, or_false] at hl
    rcases hl with rfl | rfl <;> exact unitLead_current
  · change unitX 1 1 = -1
    simp [unitX]

end Kwant.Solver
