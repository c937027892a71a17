import Verif.Scatt.Regular
import Verif.Leads.LeadSelfEx
import Mathlib.Tactic.IntervalCases
import Mathlib.Tactic.FinCases

/-!
C116: a site with two orbitals between two leads with time-reversal symmetry meets all hypotheses.
-/

set_option linter.unusedSectionVars false

namespace Kwant.Scatt
open Finset Complex Filter
open Matrix hiding mulVec
open Kwant.Leads hiding Modes
open Kwant.Solver hiding transmission LErr

/-- A lead with the hopping `trHop`. -/
noncomputable def exLead : PhysLead := ⟨2, 2, 0, trHop, [0], some trProj, trSym⟩

/-- One site with two coupled orbitals, two leads. -/
noncomputable def exOpen : Open := ⟨⟨2, 2, fun α β => if α = β then 0 else 1⟩, [2], 2, fun _ => exLead⟩

theorem exOrbs (l : Fin exOpen.N) : exOpen.iface l = [0, 1] := rfl

theorem exOpen_ok : exOpen.Ok := by
  refine ⟨rfl, rfl, ?_, ?_, fun l => rfl⟩
  · intro α _ β _
    change star (if α = β then (0 : ℂ) else 1) = if β = α then 0 else 1
    by_cases h : α = β
    · rw [if_pos h, if_pos h.symm, star_zero]
    · rw [if_neg h, if_neg (Ne.symm h), star_one]
  · intro l i hi
    change i ∈ [0] at hi
    have : i = 0 := by simpa using hi
    subst this
    decide

theorem exAt (l : Fin exOpen.N) : (exOpen.lead l).at 0 = (0 : Matrix (Fin 2) (Fin 2) ℂ) := by
  change (0 : Matrix (Fin 2) (Fin 2) ℂ) - ((0 : ℝ) : ℂ) • 1 = 0
  rw [ofReal_zero, zero_smul, sub_zero]

theorem exLeads : LeadsOk exM exOpen 0 := by
  intro l
  have h : LeadOk exM trProj trSym 0 (padHop trHop) := by rw [trPad]; exact trOk
  have e := exAt l
  change LeadOk exM trProj trSym ((exOpen.lead l).at 0) (padHop trHop)
  rw [e]
  exact h

theorem exComputed : ∃ M, Computed exM exOpen 0 M := by
  obtain ⟨M, hM, _⟩ := C114_example
  refine ⟨fun _ => M, fun l => ?_⟩
  have e := exAt l
  change modes exM (some trProj) trSym ((exOpen.lead l).at 0) trHop = .ok M
  rw [e]
  exact hM

theorem ex_lead {φ : Fin 2 → ℂ} {Ψ : ℕ → Fin 2 → ℂ} (hs : LeadSolution 0 trHop φ Ψ) (hd : Tendsto Ψ atTop (nhds 0)) : φ = 0 ∧ ∀ j, Ψ j = 0 := by
  have hH : trHopᴴ = -trHop := by
    ext i j
    fin_cases i <;> fin_cases j <;> simp [trHop]
  have hinj : ∀ x, trHop *ᵥ x = 0 → x = 0 := by
    intro x hx
    ext i
    have := congrFun hx i
    rw [trHop, mulVec_diagonal] at this
    fin_cases i <;> simpa using this
  have h1 : Ψ 1 = φ := by
    have := hs.first
    rw [trPad, hH] at this
    simp only [zero_mulVec, neg_mulVec, zero_add] at this
    refine sub_eq_zero.mp (hinj _ ?_)
    rw [mulVec_sub, sub_eq_zero]
    exact neg_add_eq_zero.mp this
  have h2 : ∀ j, Ψ (j + 2) = Ψ j := by
    intro j
    have := hs.bulk j
    rw [trPad, hH] at this
    simp only [zero_mulVec, neg_mulVec, zero_add] at this
    rw [neg_add_eq_zero] at this
    refine sub_eq_zero.mp (hinj _ ?_)
    rw [mulVec_sub, this, sub_self]
  have h3 : ∀ j t, Ψ (j + 2 * t) = Ψ j := by
    intro j t
    induction t with
    | zero => rfl
    | succ t ih => rw [show j + 2 * (t + 1) = j + 2 * t + 2 by ring, h2, ih]
  have h4 : ∀ j, Ψ j = 0 := by
    intro j
    have hsub : Tendsto (fun t : ℕ => j + 2 * t) atTop atTop := tendsto_atTop_mono (fun t => by simp only [id]; omega) tendsto_id
    have h5 := hd.comp hsub
    have h6 : (Ψ ∘ fun t : ℕ => j + 2 * t) = fun _ => Ψ j := funext fun t => h3 j t
    rw [h6] at h5
    exact tendsto_nhds_unique tendsto_const_nhds h5
  exact ⟨h1.symm.trans (h4 1), h4⟩

theorem ex_noBound : NoBoundState exOpen 0 := by
  intro ψ Ψ hw hd
  have h : ∀ l : Fin exOpen.N, exOpen.amp ψ l = 0 ∧ ∀ j, Ψ l j = 0 := by
    intro l
    have h1 := hw.lead l
    rw [exAt l] at h1
    exact ex_lead h1 (hd l)
  refine ⟨?_, fun l => (h l).2⟩
  intro α hα
  have h1 := (h (0 : Fin 2)).1
  change α < 2 at hα
  have h2 := congrFun h1 (⟨α, hα⟩ : Fin 2)
  interval_cases α
  · exact h2
  · exact h2

/-- The example meets the hypotheses of the theorems of C116, for both leads requested. -/
theorem C116_example : exOpen.Ok ∧ LeadsOk exM exOpen 0 ∧ NoBoundState exOpen 0 ∧ ∃ M, Computed exM exOpen 0 M ∧ ∀ Sig, ∃ ls kv X,
    smatrixSetup (exOpen.toSys M Sig) ((0 : ℝ) : ℂ) (some [0, 1]) (some [0, 1]) true = .ok (ls, kv, [0, 1], [0, 1]) ∧ Solves ls X ∧
    ∃ sg, BasisOk 0 (LeadBasis.mk M sg) ∧ ∃ S, IsSmatrix 0 (LeadBasis.mk M sg) S := by
  obtain ⟨M, hM⟩ := exComputed
  refine ⟨exOpen_ok, exLeads, ex_noBound, M, hM, fun Sig => ?_⟩
  have hne : trHop ≠ 0 := by
    intro h
    have := congrFun (congrFun h 0) 0
    simp [trHop] at this
  obtain ⟨ls, kv, h1, ⟨X, hX⟩, _, sg, _, hB, hS⟩ := C116_succeeds exOpen_ok exLeads hM ex_noBound (fun l => by change [0] ≠ []; simp) (fun l => hne) Sig (o := [0, 1]) (i := [0, 1])
    (by simp) (by simp) (by simp) (by simp) (by
      intro l hl
      change l < 2
      simp at hl
      omega) true
  exact ⟨ls, kv, X, h1, hX, sg, hB, hS⟩

end Kwant.Scatt
