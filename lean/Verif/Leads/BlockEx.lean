import Verif.Leads.BlockError
import Verif.Leads.EigNumEx
import Verif.Leads.ProperEx

/-!
C113: an example of a lead, with exact numerical routines, that meets all hypotheses.
-/

set_option linter.unusedSectionVars false

namespace Kwant.Leads
open Matrix Complex

variable {n r : ℕ}

/-- Every generalized eigenvalue has an eigenvector. -/
theorem eig_root {a b : Matrix (Fin r ⊕ Fin r) (Fin r ⊕ Fin r) ℂ} {s : Eig r} (hs : EigOk a b s) (hr : RegularPencil a b) (i : Fin (r + r)) :
    ∃ x, x ≠ 0 ∧ s.beta i • (a *ᵥ x) = s.alpha i • (b *ᵥ x) := by
  obtain ⟨hz1, q, σs, t, σ, ha, hb, hst, ht, hsd, htd, _⟩ := hs.ordSchur hr fun _ => true
  have hdet : (s.beta i • σs - s.alpha i • t).det = 0 := by
    have hbt : (s.beta i • σs - s.alpha i • t).BlockTriangular id := by
      intro i j hij
      rw [Matrix.sub_apply, Matrix.smul_apply, Matrix.smul_apply, hst i j hij, ht i j hij, smul_zero, smul_zero, sub_zero]
    rw [det_of_isUpperTriangular hbt]
    refine Finset.prod_eq_zero (Finset.mem_univ (σ.symm i)) ?_
    rw [Matrix.sub_apply, Matrix.smul_apply, Matrix.smul_apply, hsd, htd, Equiv.apply_symm_apply, smul_eq_mul, smul_eq_mul, mul_comm, sub_self]
  obtain ⟨y, hy0, hy⟩ := exists_mulVec_eq_zero_iff.mpr hdet
  refine ⟨s.ordSchur (fun _ => true) *ᵥ y, ?_, ?_⟩
  · intro h0
    apply hy0
    have := congrArg ((s.ordSchur fun _ => true)ᴴ *ᵥ ·) h0
    simpa only [mulVec_mulVec, hz1, one_mulVec, mulVec_zero] using this
  · rw [mulVec_mulVec, mulVec_mulVec, ha, hb, ← mulVec_mulVec, ← mulVec_mulVec, ← mulVec_smul q, ← mulVec_smul q, ← smul_mulVec, ← smul_mulVec]
    rw [sub_mulVec, sub_eq_zero] at hy
    rw [hy]

noncomputable def ex2Num : BlockNum 2 := ⟨exNum ex2Svd, exactEig (1 / 10), exactNum 2 (1 / 10) (1 / 10)⟩

theorem ex2Num_ok : ex2Num.Ok 1 := ⟨exNum_ok ex2Svd_ok, exactEig_ok (by norm_num), exactNum_ok 2 (by norm_num) (by norm_num)⟩

theorem ex2H_herm : ex2H.IsHermitian := by
  ext i j
  fin_cases i <;> fin_cases j <;> simp [ex2H]

theorem ex2NoFlat : NoFlatBand ex2H 1 := by
  refine ⟨1, one_ne_zero, fun ψ hψ => ?_⟩
  obtain ⟨h1, h2⟩ := (ex2Bloch one_ne_zero ψ).mp hψ
  ext i
  fin_cases i
  · have := (mul_eq_zero.mp h1).resolve_left (by norm_num)
    exact this
  · exact (mul_eq_zero.mp h2).resolve_left (by norm_num)

theorem ex2roots {μ : ℂ} (hμ : μ ≠ 0) {ψ : Fin 2 → ℂ} (hψ : ψ ≠ 0) (hb : IsBloch ex2H 1 μ ψ) : μ = I ∨ μ = -I ∨ μ = -2 ∨ μ = -1 / 2 := by
  obtain ⟨h1, h2⟩ := (ex2Bloch hμ ψ).mp hb
  rcases mul_eq_zero.mp h1 with h3 | h3
  · have h5 : (μ - I) * (μ + I) = 0 := by
      have : μ * μ + 1 = 0 := by
        have := congrArg (μ * ·) h3
        simpa [mul_add, hμ] using this
      linear_combination this - I_mul_I
    rcases mul_eq_zero.mp h5 with h6 | h6
    · exact .inl (sub_eq_zero.mp h6)
    · exact .inr (.inl (eq_neg_of_add_eq_zero_left h6))
  · rcases mul_eq_zero.mp h2 with h4 | h4
    · have h5 : (μ + 2) * (μ + 1 / 2) = 0 := by
        have h6 := congrArg (μ * ·) h4
        simp only [mul_add, mul_inv_cancel₀ hμ, mul_zero] at h6
        linear_combination h6
      rcases mul_eq_zero.mp h5 with h6 | h6
      · exact .inr (.inr (.inl (eq_neg_of_add_eq_zero_left h6)))
      · refine .inr (.inr (.inr ?_))
        rw [eq_neg_of_add_eq_zero_left h6]
        ring
    · exfalso
      apply hψ
      ext i
      fin_cases i
      · exact h3
      · exact h4

theorem ex2vel (k : ℝ) (ψ : Fin 2 → ℂ) (hψ : IsBloch ex2H 1 (cexp (-(I * k))) ψ) : star ψ ⬝ᵥ (velK 1 k *ᵥ ψ) = 2 * star ψ ⬝ᵥ ψ ∨ star ψ ⬝ᵥ (velK 1 k *ᵥ ψ) = -2 * star ψ ⬝ᵥ ψ := by
  by_cases h0 : ψ = 0
  · left; rw [h0]; simp
  have hμ : ‖cexp (-(I * k))‖ = 1 := norm_cexp_mom k
  have hsc : velK (1 : Matrix (Fin 2) (Fin 2) ℂ) k = (-I * cexp (-(I * k)) + (starRingEnd ℂ) (-I * cexp (-(I * k)))) • 1 := by
    rw [velK, conjTranspose_smul, conjTranspose_one, ← add_smul]
    rfl
  rw [hsc, smul_mulVec, one_mulVec, dotProduct_smul, smul_eq_mul]
  rcases ex2roots (Complex.exp_ne_zero _) h0 hψ with h1 | h1 | h1 | h1
  · left; rw [h1]; simp; left; norm_num
  · right; rw [h1]; simp; ring
  · rw [h1] at hμ; norm_num at hμ
  · rw [h1] at hμ; norm_num at hμ

theorem dot_self_zero {ψ : Fin n → ℂ} (h : star ψ ⬝ᵥ ψ = 0) : ψ = 0 := by
  open scoped ComplexOrder in exact dotProduct_star_self_eq_zero.mp (by rwa [dotProduct_comm] at h ⊢)

theorem ex2NoEdge : NoBandEdge ex2H 1 := by
  intro k ψ hψ h
  have h1 := h ψ hψ
  rcases ex2vel k ψ hψ with h2 | h2 <;> rw [h1] at h2
  · exact dot_self_zero ((mul_eq_zero.mp h2.symm).resolve_left (by norm_num))
  · exact dot_self_zero ((mul_eq_zero.mp h2.symm).resolve_left (by norm_num))

theorem ex2WellSep (L : Linsys 2) (hL : setupLinsys ex2Num.lin ex2H 1 none = .ok L) : WellSeparated ex2Num L := by
  obtain ⟨u, hf⟩ := setup_faithful ex2Num.lin ex2Num_ok.lin hL ex2Cut (by simp)
  have hr := regular_of_flat hf ex2NoFlat
  obtain ⟨hs, h1, h2, h3, h4, h5⟩ := unified_spec ex2Num_ok.eig L.a L.b
  have hLb : L.b = none := by
    have := ex2Setup.symm.trans hL
    cases this
    rfl
  have hβ : ∀ i, (ex2Num.eig.eig L.a L.b).beta i = 1 := by
    rw [hLb]
    intro i
    exact congrFun (ex2Num_ok.eig.schur L.a).2 i
  have hroot : ∀ i, (ex2Num.eig.eig L.a L.b).alpha i = 0 ∨ (ex2Num.eig.eig L.a L.b).alpha i = I ∨ (ex2Num.eig.eig L.a L.b).alpha i = -I ∨
      (ex2Num.eig.eig L.a L.b).alpha i = -2 ∨ (ex2Num.eig.eig L.a L.b).alpha i = -1 / 2 := by
    intro i
    by_cases h0 : (ex2Num.eig.eig L.a L.b).alpha i = 0
    · exact .inl h0
    right
    obtain ⟨x, hx0, hx⟩ := eig_root hs hr i
    rw [hβ, one_smul] at hx
    obtain ⟨ψ, g1, g2, _⟩ := (hf.solution h0 x).mp ((solution_iff_getD L _ x).mpr hx)
    refine ex2roots h0 (fun h6 => hx0 ?_) g1
    rw [g2, h6, mulVec_zero, mulVec_zero, smul_zero]
    ext i
    rcases i with i | i <;> rfl
  have heps : ex2Num.eig.eps = 1 / 10 := rfl
  have hgap : CircleGap ex2Num.eig.eps (ex2Num.eig.eig L.a L.b) := by
    intro i
    rw [hβ, heps, norm_one]
    rcases hroot i with h | h | h | h | h <;> rw [h]
    · right; right; norm_num
    · left; simp
    · left; simp
    · right; left; norm_num
    · right; right; norm_num
  refine ⟨hgap, ?_⟩
  have hin := propInput_block ex2H_herm hf ex2NoEdge ex2NoFlat ex2Num_ok.eig hgap
  have hpm : ∀ i, ((unifiedEigenproblem ex2Num.eig L.a L.b).ev ∘ (selected (unifiedEigenproblem ex2Num.eig L.a L.b).propselect).get) i = I ∨
      ((unifiedEigenproblem ex2Num.eig L.a L.b).ev ∘ (selected (unifiedEigenproblem ex2Num.eig L.a L.b).propselect).get) i = -I := by
    intro i
    have hu := hin.unit i
    rw [Function.comp_apply, h3, hβ, div_one] at hu ⊢
    rcases hroot ((selected (unifiedEigenproblem ex2Num.eig L.a L.b).propselect).get i) with h | h | h | h | h
    · rw [h] at hu; norm_num at hu
    · exact .inl h
    · exact .inr h
    · rw [h] at hu; norm_num at hu
    · rw [h] at hu; norm_num at hu
  have hmeps : ex2Num.mode.eps = 1 / 10 := rfl
  have d2 : ‖(2 : ℂ) * I‖ = 2 := by simp
  have d3 : ‖I - -I‖ = 2 := by rw [← d2]; congr 1; ring
  have d4 : ‖-I - I‖ = 2 := by rw [← norm_neg, ← d2]; congr 1; ring
  intro i j hij
  rw [hmeps] at hij
  rcases hpm i with h | h <;> rcases hpm j with h' | h' <;> rw [h, h'] at hij ⊢
  · rw [d3] at hij; norm_num at hij
  · rw [d4] at hij; norm_num at hij

/-- C113: the hypotheses of `C113_block` are met, and modes are returned: two propagating and one evanescent mode. -/
theorem C113_example (junk : (N : ℕ) → Fin N → ℝ) : ∃ m, computeBlockModes ex2Num ⟨none, none, none⟩ junk ex2H 1 none = .ok m ∧ BlockSpec ex2H 1 m := by
  match hm : computeBlockModes ex2Num ⟨none, none, none⟩ junk ex2H 1 none with
  | .ok m => exact ⟨m, rfl, C113_block ex2Num ex2Num_ok ex2H_herm ex2Cut ex2NoEdge ex2NoFlat (by simp) ex2WellSep junk hm⟩
  | .error x =>
    exfalso
    rcases C113_error ex2Num ex2Num_ok ex2H_herm ex2Cut ex2NoEdge ex2NoFlat (by simp) ex2WellSep junk hm with h | ⟨_, k, v, ψ, h1, h2, h3', h4⟩
    · have := ex2Setup.symm.trans h
      cases this
    · have h3 := h3' ψ h1
      rw [h2, mul_one] at h3
      have h5 : ex2Num.mode.velEps = 1 / 10 := rfl
      rw [h5] at h4
      rcases ex2vel k ψ h1 with h6 | h6 <;> rw [h3, h2] at h6
      · have : v = 2 := by
          have h7 : (v : ℂ) = ((2 : ℝ) : ℂ) := by rw [h6]; norm_num
          exact_mod_cast h7
        rw [this] at h4; norm_num at h4
      · have : v = -2 := by
          have h7 : (v : ℂ) = ((-2 : ℝ) : ℂ) := by rw [h6]; norm_num
          exact_mod_cast h7
        rw [this] at h4; norm_num at h4

end Kwant.Leads
