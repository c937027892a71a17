import Verif.Leads.ModesSym
import Verif.Leads.SymBlockError
import Verif.Leads.PartHoleEx
import Verif.Leads.ModesEx
import Verif.Leads.PhsNum

/-!
C113, C114, C189: leads without conservation laws, with discrete symmetries: when the modes can be computed, and an example.
-/

set_option linter.unusedSectionVars false

namespace Kwant.Leads
open Matrix Complex Filter

variable {n : ℕ}

/-! ### Leads without conservation laws -/

theorem default_ablk (a : Matrix (Fin n) (Fin n) ℂ) (c : Bool) (x y : Fin (Projectors.default n).nb) : ((Projectors.default n).proj y)ᴴ * a * ((Projectors.default n).proj x).map (cj c) = a := by
  change (1 : Matrix (Fin n) (Fin n) ℂ)ᴴ * a * (1 : Matrix (Fin n) (Fin n) ℂ).map (cj c) = a
  rw [conjTranspose_one, Matrix.one_mul, Matrix.map_one _ (map_zero _) (map_one _), Matrix.mul_one]

theorem LeadOk0.leadOk_sym {e : ModesNum} {h hop : Matrix (Fin n) (Fin n) ℂ} (ho : LeadOk0 e h hop) (hn : 0 < n) {sy : Symm n} (hr : SymRelated sy h hop)
    (hb : Benign (e.num n).mode sy h hop) : LeadOk e (Projectors.default n) sy h hop := by
  have h0 := ho.leadOk
  have hun : (∀ U, sy.tr = some U → Uᴴ * U = 1) ∧ (∀ U, sy.ph = some U → Uᴴ * U = 1) ∧ ∀ U, sy.chiral = some U → Uᴴ * U = 1 :=
    ⟨fun U hU => (hr.tr U hU).left, fun U hU => (hr.ph U hU).left, fun U hU => (hr.chiral U hU).left⟩
  have one : ∀ {c f : Bool} {U : Matrix (Fin n) (Fin n) ℂ}, Related U c f h hop h hop → SymOk (Projectors.default n) c f h hop U := by
    intro c f U hU
    refine ⟨hU.cell, hU.hop, fun x y => ?_⟩
    right
    have e1 := default_ablk U c x y
    exact ⟨(congrArg (fun B : Matrix (Fin n) (Fin n) ℂ => Bᴴ * B) e1).trans hU.left, (congrArg (fun B : Matrix (Fin n) (Fin n) ℂ => B * Bᴴ) e1).trans hU.right⟩
  refine ⟨h0.proj, ⟨fun U hU => one (hr.tr U hU), fun U hU => one (hr.ph U hU), fun U hU => one (hr.chiral U hU)⟩, ?_, ho.herm, ho.edge, ho.flat, ho.infinite, h0.num, h0.cut, h0.sep⟩
  intro b
  have e1 := inner_default hn hun b
  have e2 := default_blk h b b
  have e3 := default_blk hop b b
  have h1 : Benign (e.num n).mode (innerSymm (Projectors.default n) sy b) ((Projectors.default n).blk h b b) ((Projectors.default n).blk hop b b) := by
    have := congrArg (fun s : Symm n => Benign (e.num n).mode s ((Projectors.default n).blk h b b) ((Projectors.default n).blk hop b b)) e1
    refine this.mpr ?_
    have := congrArg₂ (fun x y : Matrix (Fin n) (Fin n) ℂ => Benign (e.num n).mode sy x y) e2 e3
    exact this.mpr hb
  exact h1

/-- **C114**: `modes` succeeds for a lead with symmetries but without conservation laws if the linear system can be set up and all modes are faster than the tolerance. -/
theorem C114_sym_ok {e : ModesNum} {h hop : Matrix (Fin n) (Fin n) ℂ} (ho : LeadOk0 e h hop) (hn : 0 < n) {sy : Symm n} (hr : SymRelated sy h hop)
    (hb : Benign (e.num n).mode sy h hop) (hph : ∀ U, sy.ph = some U → (U * conjM U = 1 ∨ U * conjM U = -1) ∧ NoTrimModes h hop)
    (hL : ∃ L, setupLinsys (e.num n).lin h hop e.stab = .ok L)
    (hv : ∀ (k v : ℝ) (ψ : Fin n → ℂ), IsBloch h hop (cexp (-(I * k))) ψ → star ψ ⬝ᵥ ψ = 1 →
      (∀ φ, IsBloch h hop (cexp (-(I * k))) φ → star φ ⬝ᵥ (velK hop k *ᵥ ψ) = v * (star φ ⬝ᵥ ψ)) → (e.num n).mode.velEps ≤ |v|) : ∃ M, modes e none sy h hop = .ok M := by
  have hpad : padHop hop = hop := by
    ext i j
    change (if h : j.val < n then hop i ⟨j.val, h⟩ else 0) = _
    rw [dif_pos j.2]
  have hl := ho.leadOk_sym hn hr hb
  match hm : modes e none sy h hop with
  | .ok M => exact ⟨M, rfl⟩
  | .error x =>
    exfalso
    have hl' : LeadOk e ((none : Option (Projectors n)).getD (Projectors.default n)) sy h (padHop hop) := by
      rw [hpad]
      exact hl
    rcases C114_error hl' hm with h1 | ⟨b, h1⟩
    · exact absurd h1.1 (lt_irrefl _)
    · have hun : (∀ U, sy.tr = some U → Uᴴ * U = 1) ∧ (∀ U, sy.ph = some U → Uᴴ * U = 1) ∧ ∀ U, sy.chiral = some U → Uᴴ * U = 1 :=
        ⟨fun U hU => (hr.tr U hU).left, fun U hU => (hr.ph U hU).left, fun U hU => (hr.chiral U hU).left⟩
      rw [hpad] at h1
      have e1 := inner_default hn hun b
      have e2 := default_blk h b b
      have e3 := default_blk hop b b
      have h2 : computeBlockModes (e.num n) sy (e.junk b) h hop e.stab = .error x := by
        have a1 : computeBlockModes (e.num n) (innerSymm (Projectors.default n) sy b) (e.junk b) ((Projectors.default n).blk h b b) ((Projectors.default n).blk hop b b) e.stab = .error x := h1
        have a2 := congrArg (fun s : Symm n => computeBlockModes (e.num n) s (e.junk b) ((Projectors.default n).blk h b b) ((Projectors.default n).blk hop b b) e.stab) e1
        have a3 := congrArg₂ (fun x y : Matrix (Fin n) (Fin n) ℂ => computeBlockModes (e.num n) sy (e.junk b) x y e.stab) e2 e3
        exact (a2.trans a3).symm.trans a1
      match h3 : computeBlockModes (e.num n) ⟨none, none, none⟩ (e.junk b) h hop e.stab with
      | .ok m =>
        obtain ⟨m', hm'⟩ := (C113_error_sym (e.num n) ho.num ho.herm ho.cut ho.edge ho.flat ho.infinite ho.sep (e.junk b) hr hb hph).mpr ⟨m, h3⟩
        have := hm'.symm.trans h2
        cases this
      | .error y =>
        rcases C113_error (e.num n) ho.num ho.herm ho.cut ho.edge ho.flat ho.infinite ho.sep (e.junk b) h3 with h4 | ⟨_, k, v, ψ, g1, g2, g3, g4⟩
        · obtain ⟨L, hL⟩ := hL
          have := hL.symm.trans h4
          cases this
        · exact absurd (hv k v ψ g1 g2 g3) (not_le.mpr g4)

/-! ### Example: two chains with opposite hoppings -/

noncomputable def numP (d : ℕ) : BlockNum d := ⟨uniLin d, exactEig (1 / 10), exactNumP d (1 / 10) (1 / 10)⟩

noncomputable def exMP : ModesNum := ⟨numP, fun _ _ _ => 0, none⟩

/-- The hoppings `1` and `-1` -/
noncomputable def pmT : Fin 2 → ℂ := phT ![1, -1] fun _ => I

noncomputable def pmHop : Matrix (Fin 2) (Fin 2) ℂ := diagonal pmT

theorem pmT_eq : pmT = ![1, -1] := by
  funext j
  fin_cases j <;> simp [pmT, phT]

theorem pmHop_eq : pmHop = !![1, 0; 0, -1] := by
  rw [pmHop, pmT_eq]
  ext i j
  fin_cases i <;> fin_cases j <;> simp

theorem pmLead : DiagLead 0 pmT (phLam fun _ : Fin 2 => I) (cosOrb 2) := by
  have habs : ∀ j, |(![1, -1] : Fin 2 → ℝ) j| = 1 := by
    intro j
    fin_cases j <;> simp
  exact phLead ![1, -1] (fun _ => I) (fun _ => by simp) (fun j h0 => by have := habs j; rw [h0] at this; simp at this) (fun i j _ => by simp only [habs]; exact le_rfl)
    (fun i j => by rw [habs, habs]; norm_num)

theorem pmBloch {μ : ℂ} (hμ : μ ≠ 0) (ψ : Fin 2 → ℂ) : IsBloch 0 pmHop μ ψ ↔ (μ + μ⁻¹) * ψ 0 = 0 ∧ (μ + μ⁻¹) * ψ 1 = 0 := by
  rw [isBloch_iff _ _ hμ, funext_iff, Fin.forall_fin_two, pmHop_eq]
  have e1 : (((0 : Matrix (Fin 2) (Fin 2) ℂ) *ᵥ ψ + μ • ((!![1, 0; 0, -1] : Matrix (Fin 2) (Fin 2) ℂ) *ᵥ ψ) + μ⁻¹ • ((!![1, 0; 0, -1] : Matrix (Fin 2) (Fin 2) ℂ)ᴴ *ᵥ ψ)) 0) = (μ + μ⁻¹) * ψ 0 := by
    simp [mulVec, dotProduct, Fin.sum_univ_two]
    ring
  have e2 : (((0 : Matrix (Fin 2) (Fin 2) ℂ) *ᵥ ψ + μ • ((!![1, 0; 0, -1] : Matrix (Fin 2) (Fin 2) ℂ) *ᵥ ψ) + μ⁻¹ • ((!![1, 0; 0, -1] : Matrix (Fin 2) (Fin 2) ℂ)ᴴ *ᵥ ψ)) 1) = -((μ + μ⁻¹) * ψ 1) := by
    simp [mulVec, dotProduct, Fin.sum_univ_two]
    ring
  rw [e1, e2, Pi.zero_apply, Pi.zero_apply, neg_eq_zero]

theorem pmRoots {μ : ℂ} (hμ : μ ≠ 0) {ψ : Fin 2 → ℂ} (hψ : ψ ≠ 0) (hb : IsBloch 0 pmHop μ ψ) : μ = I ∨ μ = -I := by
  obtain ⟨h1, h2⟩ := (pmBloch hμ ψ).mp hb
  have h3 : μ + μ⁻¹ = 0 := by
    by_contra h0
    apply hψ
    ext i
    fin_cases i
    · exact (mul_eq_zero.mp h1).resolve_left h0
    · exact (mul_eq_zero.mp h2).resolve_left h0
  have h4 : (μ - I) * (μ + I) = 0 := by
    have := congrArg (μ * ·) h3
    simp only [mul_add, mul_inv_cancel₀ hμ, mul_zero] at this
    linear_combination this - I_mul_I
  rcases mul_eq_zero.mp h4 with h | h
  · exact .inl (sub_eq_zero.mp h)
  · exact .inr (eq_neg_of_add_eq_zero_left h)

theorem pmFlat : NoFlatBand 0 pmHop := by
  refine ⟨2, by norm_num, fun ψ hψ => ?_⟩
  obtain ⟨h1, h2⟩ := (pmBloch (by norm_num) ψ).mp hψ
  have h0 : (2 : ℂ) + 2⁻¹ ≠ 0 := by norm_num
  ext i
  fin_cases i
  · exact (mul_eq_zero.mp h1).resolve_left h0
  · exact (mul_eq_zero.mp h2).resolve_left h0

theorem pmVel (k : ℝ) (ψ : Fin 2 → ℂ) : velK pmHop k *ᵥ ψ = ![-I * (cexp (-(I * k)) - star (cexp (-(I * k)))) * ψ 0, I * (cexp (-(I * k)) - star (cexp (-(I * k)))) * ψ 1] := by
  rw [pmHop_eq]
  ext i
  fin_cases i <;> simp [velK, mulVec, dotProduct, Fin.sum_univ_two, conjTranspose_apply]
  · ring
  · left; ring

/-- The velocities are `± 2`. -/
theorem pmSpeed {k : ℝ} {v : ℝ} {ψ : Fin 2 → ℂ} (hb : IsBloch 0 pmHop (cexp (-(I * k))) ψ) (hψ : ψ ≠ 0)
    (hv : ∀ φ, IsBloch 0 pmHop (cexp (-(I * k))) φ → star φ ⬝ᵥ (velK pmHop k *ᵥ ψ) = v * (star φ ⬝ᵥ ψ)) : v = 2 ∨ v = -2 := by
  have h1 := pmRoots (Complex.exp_ne_zero _) hψ hb
  have h2 : cexp (-(I * k)) + (cexp (-(I * k)))⁻¹ = 0 := by
    rcases h1 with h | h <;> rw [h]
    · rw [inv_I]; ring
    · rw [inv_neg, inv_I]; ring
  have hz : ∀ φ, IsBloch 0 pmHop (cexp (-(I * k))) φ := fun φ => (pmBloch (Complex.exp_ne_zero _) φ).mpr (by rw [h2]; simp)
  have g0 := hv ![1, 0] (hz _)
  have g1 := hv ![0, 1] (hz _)
  rw [pmVel] at g0 g1
  simp only [dotProduct, Fin.sum_univ_two, Pi.star_apply, cons_val_zero, cons_val_one, star_zero, zero_mul, add_zero, zero_add, star_one, one_mul] at g0 g1
  obtain ⟨j, hj⟩ := Function.ne_iff.mp hψ
  have key : ∀ {x s : ℂ}, x ≠ 0 → (s = 2 ∨ s = -2) → s * x = v * x → v = 2 ∨ v = -2 := by
    intro x s hx hs h
    have h5 : s = v := mul_right_cancel₀ hx h
    rw [h5] at hs
    rcases hs with h | h
    · left; exact_mod_cast h
    · right; exact_mod_cast h
  have s1 : -I * (cexp (-(I * k)) - star (cexp (-(I * k)))) = 2 ∨ -I * (cexp (-(I * k)) - star (cexp (-(I * k)))) = -2 := by
    rcases h1 with h | h <;> rw [h]
    · left; simp; linear_combination -2 * I_mul_I
    · right; simp; linear_combination -2 * I_mul_I
  fin_cases j
  · exact key hj s1 g0
  · refine key hj ?_ g1
    rcases s1 with h | h
    · right; linear_combination -h
    · left; linear_combination -h

theorem pmEdge : NoBandEdge 0 pmHop := by
  intro k ψ hψ hφ
  by_contra h0
  rcases pmSpeed (v := 0) hψ h0 (fun φ h => by rw [hφ φ h]; simp) with h | h <;> norm_num at h

theorem pmUnitary : pmHop * pmHopᴴ = 1 := by
  rw [pmHop_eq]
  ext i j
  fin_cases i <;> fin_cases j <;> simp [mul_apply, Fin.sum_univ_two, conjTranspose_apply]

theorem pmNe : pmHop ≠ 0 := by
  intro h
  rw [pmHop_eq] at h
  have := congrFun (congrFun h 0) 0
  simp at this

theorem numP_ok {d : ℕ} {hop : Matrix (Fin d) (Fin d) ℂ} (h : hop * hopᴴ = 1) : (numP d).Ok hop :=
  ⟨uniLin_ok h, exactEig_ok (by norm_num), exactNumP_ok d (by norm_num) (by norm_num)⟩

theorem pmWellSep (L : Linsys 2) (hL : setupLinsys (numP 2).lin 0 pmHop none = .ok L) : WellSeparated (numP 2) L := by
  have hok := numP_ok pmUnitary
  obtain ⟨u, hf⟩ := setup_faithful (numP 2).lin hok.lin hL (uniCut _) (by simp)
  have hr := regular_of_flat hf pmFlat
  obtain ⟨hs, h1, h2, h3, h4, h5⟩ := unified_spec hok.eig L.a L.b
  have hLb : L.b = none := by
    have := (uniSetup (h := 0) pmNe).symm.trans hL
    cases this
    rfl
  have hβ : ∀ i, ((numP 2).eig.eig L.a L.b).beta i = 1 := by
    rw [hLb]
    intro i
    exact congrFun (hok.eig.schur L.a).2 i
  have hroot : ∀ i, ((numP 2).eig.eig L.a L.b).alpha i = 0 ∨ ((numP 2).eig.eig L.a L.b).alpha i = I ∨ ((numP 2).eig.eig L.a L.b).alpha i = -I := by
    intro i
    by_cases h0' : ((numP 2).eig.eig L.a L.b).alpha i = 0
    · exact .inl h0'
    right
    obtain ⟨x, hx0, hx⟩ := eig_root hs hr i
    rw [hβ, one_smul] at hx
    obtain ⟨ψ, g1, g2, _⟩ := (hf.solution h0' x).mp ((solution_iff_getD L _ x).mpr hx)
    refine pmRoots h0' (fun h6 => hx0 ?_) g1
    rw [g2, h6, mulVec_zero, mulVec_zero, smul_zero]
    ext i
    rcases i with i | i <;> rfl
  have heps : (numP 2).eig.eps = 1 / 10 := rfl
  have hgap : CircleGap (numP 2).eig.eps ((numP 2).eig.eig L.a L.b) := by
    intro i
    rw [hβ, heps, norm_one]
    rcases hroot i with h | h | h <;> rw [h]
    · right; right; norm_num
    · left; simp
    · left; simp
  refine ⟨hgap, ?_⟩
  have hin := propInput_block isHermitian_zero hf pmEdge pmFlat hok.eig hgap
  have hpm : ∀ i, ((unifiedEigenproblem (numP 2).eig L.a L.b).ev ∘ (selected (unifiedEigenproblem (numP 2).eig L.a L.b).propselect).get) i = I ∨
      ((unifiedEigenproblem (numP 2).eig L.a L.b).ev ∘ (selected (unifiedEigenproblem (numP 2).eig L.a L.b).propselect).get) i = -I := by
    intro i
    have hu := hin.unit i
    rw [Function.comp_apply, h3, hβ, div_one] at hu ⊢
    rcases hroot ((selected (unifiedEigenproblem (numP 2).eig L.a L.b).propselect).get i) with h | h | h
    · rw [h] at hu; norm_num at hu
    · exact .inl h
    · exact .inr h
  have hmeps : (numP 2).mode.eps = 1 / 10 := rfl
  have h2I : ‖I - -I‖ = 2 := by
    rw [sub_neg_eq_add, ← two_mul, norm_mul, norm_I]
    norm_num
  intro i j hij
  rw [hmeps] at hij
  rcases hpm i with h | h <;> rcases hpm j with h' | h' <;> rw [h, h'] at hij ⊢
  · rw [h2I] at hij
    norm_num at hij
  · rw [norm_sub_rev, h2I] at hij
    norm_num at hij

theorem pmOk : LeadOk0 exMP 0 pmHop :=
  ⟨isHermitian_zero, pmEdge, pmFlat, fun s0 hs => (by cases hs), numP_ok pmUnitary, uniCut _, pmWellSep⟩

/-- Time reversal: complex conjugation -/
def pmTr : Symm 2 := ⟨some 1, none, none⟩

/-- Chiral symmetry: `σ_x` -/
def pmChiral : Symm 2 := ⟨none, none, some !![0, 1; 1, 0]⟩

/-- Particle-hole symmetry: `σ_x K` -/
def pmPh : Symm 2 := ⟨none, some !![0, 1; 1, 0], none⟩

theorem pmNoTrim : NoTrimModes 0 pmHop := by
  intro μ ψ hμ hb
  by_contra h0
  have hne : μ ≠ 0 := by rcases hμ with h | h <;> rw [h] <;> norm_num
  rcases pmRoots hne h0 hb with h | h <;> rcases hμ with h' | h' <;> rw [h'] at h <;> have := congrArg Complex.re h <;> norm_num at this

theorem pmOneSpeed : OneSpeed 0 pmHop ∧ NotMixedPi 0 pmHop ∧ ∀ δ, SpeedGap δ 0 pmHop := by
  have habs : ∀ j, |(![1, -1] : Fin 2 → ℝ) j| = 1 := by
    intro j
    fin_cases j <;> simp
  have h1 := ph_oneSpeed (s := ![1, -1]) (z := fun _ : Fin 2 => I) (fun _ => by simp) habs pmLead
  have h2 := ph_notMixed (s := ![1, -1]) (z := fun _ : Fin 2 => I) (fun _ => rfl) pmLead
  have h3 := fun δ => ph_gap_away (s := ![1, -1]) (z := fun _ : Fin 2 => I) (fun _ => rfl) (δ := δ) pmLead
  rw [diagH_zero] at h1 h2
  refine ⟨h1, h2, fun δ => ?_⟩
  have := h3 δ
  rw [diagH_zero] at this
  exact this

theorem pmBenign (sy : Symm 2) (h : sy.chiral ≠ none → sy.tr = none → sy.ph = none) : Benign (exMP.num 2).mode sy 0 pmHop := by
  obtain ⟨h1, h2, h3⟩ := pmOneSpeed
  refine ⟨fun _ => ⟨h1, h2⟩, fun a b => ⟨h a b, h1⟩, fun _ => ⟨h1.away, .inl fun ψ hψ => pmNoTrim (-1) ψ (.inr rfl) hψ, h3 _, exactNumP_phs 2, ?_, ?_⟩⟩
  · change (1 / 10 : ℝ) ≤ 1
    norm_num
  · intro μ ψ hμ hb h0
    right; right
    have hne : μ ≠ 0 := by
      rintro rfl
      simp at hμ
    change |μ.re| ≤ 1 - 1 / 10
    rcases pmRoots hne h0 hb with h | h <;> rw [h] <;> norm_num

theorem pmX : (!![0, 1; 1, 0] : Matrix (Fin 2) (Fin 2) ℂ)ᴴ * !![0, 1; 1, 0] = 1 ∧ (!![0, 1; 1, 0] : Matrix (Fin 2) (Fin 2) ℂ) * (!![0, 1; 1, 0])ᴴ = 1 := by
  constructor <;> ext i j <;> fin_cases i <;> fin_cases j <;> simp [mul_apply, Fin.sum_univ_two, conjTranspose_apply]

theorem pmXHop (c : Bool) : pmHop * !![0, 1; 1, 0] = (-1 : ℂ) • (!![0, 1; 1, 0] * pmHop.map (cj c)) := by
  rw [pmHop_eq]
  ext i j
  cases c <;> fin_cases i <;> fin_cases j <;> simp [mul_apply, Fin.sum_univ_two, cj, vecMul, dotProduct]

theorem pmRelX (c : Bool) : Related !![0, 1; 1, 0] c true 0 pmHop 0 pmHop := by
  refine ⟨pmX.1, pmX.2, ?_, ?_⟩
  · rw [Matrix.zero_mul, Matrix.map_zero _ (map_zero _), Matrix.mul_zero, smul_zero]
  · rw [if_pos rfl]
    exact pmXHop c

theorem pmRel1 : Related 1 true false 0 pmHop 0 pmHop := by
  refine ⟨by simp, by simp, by simp, ?_⟩
  rw [if_neg (by simp), one_smul, Matrix.mul_one, Matrix.one_mul, pmHop_eq]
  ext i j
  fin_cases i <;> fin_cases j <;> simp [cj]

theorem pmRelated : SymRelated pmTr 0 pmHop ∧ SymRelated pmChiral 0 pmHop ∧ SymRelated pmPh 0 pmHop := by
  refine ⟨⟨?_, ?_, ?_⟩, ⟨?_, ?_, ?_⟩, ⟨?_, ?_, ?_⟩⟩ <;> intro U hU <;> cases hU
  · exact pmRel1
  · exact pmRelX false
  · exact pmRelX true

theorem pmModes {sy : Symm 2} (hr : SymRelated sy 0 pmHop) (h : sy.chiral ≠ none → sy.tr = none → sy.ph = none) (hph : ∀ U, sy.ph = some U → U * conjM U = 1) :
    ∃ M, modes exMP none sy 0 pmHop = .ok M := by
  refine C114_sym_ok pmOk (by norm_num) hr (pmBenign sy h) (fun U hU => ⟨.inl (hph U hU), pmNoTrim⟩) ⟨_, uniSetup pmNe⟩ ?_
  intro k v ψ h1 h2 h3
  change (1 / 10 : ℝ) ≤ |v|
  have h0 : ψ ≠ 0 := by
    rintro rfl
    simp at h2
  rcases pmSpeed h1 h0 h3 with h | h <;> rw [h] <;> norm_num

/-- C189, C114: the example meets the hypotheses, for each of the three symmetries. -/
theorem C189_lead_example : ∀ sy ∈ [pmTr, pmChiral, pmPh], LeadOk exMP (Projectors.default 2) sy 0 pmHop ∧ ∃ M, modes exMP none sy 0 pmHop = .ok M := by
  obtain ⟨h1, h2, h3⟩ := pmRelated
  have hx : (!![0, 1; 1, 0] : Matrix (Fin 2) (Fin 2) ℂ) * conjM !![0, 1; 1, 0] = 1 := by
    ext i j
    fin_cases i <;> fin_cases j <;> simp [mul_apply, Fin.sum_univ_two, conjM]
  intro sy hsy
  simp only [List.mem_cons, List.not_mem_nil, or_false] at hsy
  rcases hsy with rfl | rfl | rfl
  · exact ⟨pmOk.leadOk_sym (by norm_num) h1 (pmBenign _ fun h _ => absurd rfl h), pmModes h1 (fun h _ => absurd rfl h) fun U hU => by cases hU⟩
  · exact ⟨pmOk.leadOk_sym (by norm_num) h2 (pmBenign _ fun _ _ => rfl), pmModes h2 (fun _ _ => rfl) fun U hU => by cases hU⟩
  · exact ⟨pmOk.leadOk_sym (by norm_num) h3 (pmBenign _ fun h _ => absurd rfl h), pmModes h3 (fun h _ => absurd rfl h) fun U hU => by cases hU; exact hx⟩

end Kwant.Leads
