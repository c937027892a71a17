import Verif.Leads.Bloch
import Mathlib.LinearAlgebra.Matrix.Notation
import Mathlib.Tactic.NormNum

/-!
Examples for C108: a lead with two orbitals, one of which is coupled to the next cell; the singular hopping is treated with the stabilized algorithm.
-/

set_option linter.unusedSectionVars false

namespace Kwant.Leads
open Matrix Complex

open Classical in
/-- Exact numerical routines, with the given singular value decomposition. -/
noncomputable def exNum {n : ℕ} (d : Svd n) : Numerics n :=
  { svd := fun _ => d
    rcond := fun m => if IsUnit m.det then 1 else 0
    luSolve := fun m b => m⁻¹ * b
    inv := fun m => m⁻¹
    eps := 1 / 2
    tol := 1 }

theorem exNum_ok {n : ℕ} {d : Svd n} {hop : Matrix (Fin n) (Fin n) ℂ} (h : SvdOk hop d) : (exNum d).Ok hop := by
  refine ⟨h, ?_, fun m b _ => rfl, fun m _ => rfl, by norm_num [exNum], by norm_num [exNum]⟩
  intro k _ _ m hm
  by_contra hc
  have : (exNum d).rcond m = 0 := if_neg hc
  rw [this] at hm
  exact lt_irrefl _ hm

def exH : Matrix (Fin 2) (Fin 2) ℂ := diagonal ![0, 1]
def exHop : Matrix (Fin 2) (Fin 2) ℂ := diagonal ![1, 0]
noncomputable def exSvd : Svd 2 := ⟨1, ![1, 0], 1⟩

theorem exSvd_ok : SvdOk exHop exSvd := by
  refine ⟨?_, by simp [exSvd], by simp [exSvd], ?_, ?_⟩
  · ext i j
    fin_cases i <;> fin_cases j <;> simp [exHop, exSvd]
  · intro i
    fin_cases i <;> simp [exSvd]
  · intro i j hij
    fin_cases i <;> fin_cases j <;> simp_all [exSvd]

theorem exCut : CutExact (exNum exSvd) exHop := by
  intro i hi
  fin_cases i
  · exfalso
    norm_num [exNum, exSvd] at hi
  · simp [exNum, exSvd]

theorem exNoInf : NoInfinite exH exHop := by
  intro ψ φ h1 h2
  have a := congrFun h1 0
  have b := congrFun h2 1
  ext i
  fin_cases i
  · simpa [exHop, mulVec_diagonal] using a
  · simpa [exH, exHop, mulVec_diagonal] using b

theorem exCount : nNonsing (exNum exSvd) exSvd.s = 1 := by
  have : (Finset.univ.filter fun i : Fin 2 => exSvd.s i > (exNum exSvd).eps * exSvd.s ⟨0, i.pos⟩) = {0} := by
    ext i
    fin_cases i <;> norm_num [exNum, exSvd]
  rw [nNonsing, this, Finset.card_singleton]

/-- `setup_linsys` succeeds, whatever the argument `stabilization` is. -/
theorem exSetup (stab : Option (Option Bool × Bool)) : ∃ L, setupLinsys (exNum exSvd) exH exHop stab = .ok L := by
  rw [setupLinsys, if_neg]
  · dsimp only
    have h1 : ¬(nNonsing (exNum exSvd) ((exNum exSvd).svd exHop).s = 2 ∧ stab = none) := by
      intro hc
      have : nNonsing (exNum exSvd) exSvd.s = 2 := hc.1
      rw [exCount] at this
      cases this
    rw [if_neg h1]
    split
    · exact ⟨_, rfl⟩
    · rw [if_neg]
      · exact ⟨_, rfl⟩
      · have hstab : stabH exH (cutU ((exNum exSvd).svd exHop) (nNonsing_le (exNum exSvd) ((exNum exSvd).svd exHop).s))
            (cutV ((exNum exSvd).svd exHop) (nNonsing_le (exNum exSvd) ((exNum exSvd).svd exHop).s)) = diagonal ![2 * I, 1] := by
          have key : ∀ (r : ℕ) (hr : r ≤ 2), r = 1 → stabH exH (cutU exSvd hr) (cutV exSvd hr) = diagonal ![2 * I, 1] := by
            intro r hr h1
            subst h1
            have h0 : ∀ j : Fin 1, (Fin.castLE hr j : Fin 2) = 0 := by intro j; ext; simp
            ext i j
            fin_cases i <;> fin_cases j <;> simp [stabH, exH, cutU, cutV, exSvd, Matrix.mul_apply, conjTranspose_apply, h0] <;> ring
          exact key _ _ exCount
        rw [hstab]
        have : IsUnit (diagonal ![2 * I, 1] : Matrix (Fin 2) (Fin 2) ℂ).det := by
          rw [det_diagonal, isUnit_iff_ne_zero]
          simp
        simp only [exNum, this, if_true]
        norm_num
  · intro hc
    have := congrFun (congrFun hc 0) 0
    simp [exHop] at this

/-- There is a nonzero Bloch solution. -/
theorem exBloch : IsBloch exH exHop I ![1, 0] := by
  rw [isBloch_iff _ _ I_ne_zero]
  ext i
  fin_cases i <;> simp [exH, exHop, mulVec_diagonal, diagonal_conjTranspose]

/-- Non-vacuity of C108, for every value of `stabilization`: the system has a nonzero solution of the eigenproblem with the eigenvalue `1j`. -/
example (stab : Option (Option Bool × Bool)) : ∃ L, setupLinsys (exNum exSvd) exH exHop stab = .ok L ∧ ∃ x, L.Solution I x ∧ L.extract1 I x = ![1, 0] := by
  obtain ⟨L, hL⟩ := exSetup stab
  refine ⟨L, hL, ?_⟩
  obtain ⟨x, hx, he⟩ := (C108_bloch (exNum exSvd) (exNum_ok exSvd_ok) hL exCut (fun _ _ => exNoInf) I_ne_zero).surjOn exBloch
  exact ⟨x, hx, he⟩

end Kwant.Leads
