import Verif.Scatt.SymComputed
import Verif.Scatt.Onsager
import Verif.Leads.SymLeadEx

/-!
C189: a site with two orbitals between two leads meets all hypotheses, for each of the three discrete symmetries.
-/

set_option linter.unusedSectionVars false

namespace Kwant.Scatt
open Finset Complex Filter
open Matrix hiding mulVec
open Kwant.Leads hiding Modes
open Kwant.Solver hiding transmission LErr mulVec

/-- A lead with two chains with opposite hoppings -/
noncomputable def pmPhysLead (sy : Symm 2) : PhysLead := ⟨2, 2, 0, pmHop, [0], none, sy⟩

/-- One site with the on-site energies `1` and `-1`, two leads. -/
noncomputable def pmOpen (sy : Symm 2) : Open := ⟨⟨2, 2, fun α β => if α = β then (if α = 0 then 1 else -1) else 0⟩, [2], 2, fun _ => pmPhysLead sy⟩

variable (sy : Symm 2)

theorem pmOpen_ok : (pmOpen sy).Ok := by
  refine ⟨rfl, rfl, ?_, ?_, fun l => rfl⟩
  · intro α _ β _
    change star (if α = β then (if α = 0 then (1 : ℂ) else -1) else 0) = if β = α then (if β = 0 then 1 else -1) else 0
    by_cases h : α = β
    · subst h
      rw [if_pos rfl]
      split <;> simp
    · rw [if_neg h, if_neg (Ne.symm h), star_zero]
  · intro l i hi
    change i ∈ [0] at hi
    have : i = 0 := by simpa using hi
    subst this
    change 0 < 1
    decide

theorem pmAt (l : Fin (pmOpen sy).N) : ((pmOpen sy).lead l).at 0 = (0 : Matrix (Fin 2) (Fin 2) ℂ) := by
  change (0 : Matrix (Fin 2) (Fin 2) ℂ) - ((0 : ℝ) : ℂ) • 1 = 0
  rw [ofReal_zero, zero_smul, sub_zero]

theorem pmPad : padHop pmHop = pmHop := by
  ext i j
  have : j.val < 2 := j.2
  change (if h : j.val < 2 then pmHop i ⟨j.val, h⟩ else 0) = _
  rw [dif_pos this]

theorem pm_lead {φ : Fin 2 → ℂ} {Ψ : ℕ → Fin 2 → ℂ} (hs : LeadSolution 0 pmHop φ Ψ) (hd : Tendsto Ψ atTop (nhds 0)) : φ = 0 ∧ ∀ j, Ψ j = 0 := by
  have hH : pmHopᴴ = pmHop := by
    rw [pmHop_eq]
    ext i j
    fin_cases i <;> fin_cases j <;> simp
  have hinj : ∀ x, pmHop *ᵥ x = 0 → x = 0 := by
    intro x hx
    have h1 : pmHopᴴ * pmHop = 1 := by rw [hH]; have := pmUnitary; rwa [hH] at this
    have h2 := congrArg (fun y => pmHopᴴ *ᵥ y) hx
    simp only [Matrix.mulVec_mulVec, h1, Matrix.one_mulVec, Matrix.mulVec_zero] at h2
    exact h2
  have h1 : Ψ 1 = -φ := by
    have := hs.first
    rw [pmPad, hH] at this
    simp only [Matrix.zero_mulVec, zero_add] at this
    refine eq_neg_of_add_eq_zero_left (hinj _ ?_)
    rw [Matrix.mulVec_add]
    exact this
  have h2 : ∀ j, Ψ (j + 2) = -Ψ j := by
    intro j
    have := hs.bulk j
    rw [pmPad, hH] at this
    simp only [Matrix.zero_mulVec, zero_add] at this
    refine eq_neg_of_add_eq_zero_left (hinj _ ?_)
    rw [Matrix.mulVec_add]
    exact this
  have h2' : ∀ j, Ψ (j + 4) = Ψ j := by
    intro j
    rw [show j + 4 = j + 2 + 2 by ring, h2, h2, neg_neg]
  have h3 : ∀ j t, Ψ (j + 4 * t) = Ψ j := by
    intro j t
    induction t with
    | zero => rfl
    | succ t ih => rw [show j + 4 * (t + 1) = j + 4 * t + 4 by ring, h2', ih]
  have h4 : ∀ j, Ψ j = 0 := by
    intro j
    have hsub : Tendsto (fun t : ℕ => j + 4 * t) atTop atTop := tendsto_atTop_mono (fun t => by simp only [id]; omega) tendsto_id
    have h5 := hd.comp hsub
    have h6 : (Ψ ∘ fun t : ℕ => j + 4 * t) = fun _ => Ψ j := funext fun t => h3 j t
    rw [h6] at h5
    exact tendsto_nhds_unique tendsto_const_nhds h5
  refine ⟨?_, h4⟩
  have := h1
  rw [h4 1] at this
  exact neg_eq_zero.mp this.symm

theorem pm_noBound : NoBoundState (pmOpen sy) 0 := by
  intro ψ Ψ hw hd
  have h : ∀ l : Fin (pmOpen sy).N, (pmOpen sy).amp ψ l = 0 ∧ ∀ j, Ψ l j = 0 := by
    intro l
    have h1 := hw.lead l
    rw [pmAt sy l] at h1
    exact pm_lead h1 (hd l)
  refine ⟨?_, fun l => (h l).2⟩
  intro α hα
  have h1 := (h (0 : Fin 2)).1
  change α < 2 at hα
  have h2 := congrFun h1 (⟨α, hα⟩ : Fin 2)
  interval_cases α
  · exact h2
  · exact h2

variable {sy}

theorem pmLeadsOk (h : LeadOk exMP (Projectors.default 2) sy 0 pmHop) : LeadsOk exMP (pmOpen sy) 0 := by
  intro l
  have e := pmAt sy l
  change LeadOk exMP (Projectors.default 2) sy (((pmOpen sy).lead l).at 0) (padHop pmHop)
  rw [e, pmPad]
  exact h

theorem pmComputed {M : LeadModes 2 2} (hM : modes exMP none sy 0 pmHop = .ok M) : Computed exMP (pmOpen sy) 0 fun _ => M := by
  intro l
  have e := pmAt sy l
  change modes exMP none sy (((pmOpen sy).lead l).at 0) pmHop = .ok M
  rw [e]
  exact hM

/-- A matrix that acts on the two orbitals of the example -/
theorem pmSymOf (c g : Bool) (W : Matrix (Fin 2) (Fin 2) ℂ) (hun : Wᴴ * W = 1) (hhop : W * pmHop.map (kap c) = (eta g : ℂ) • (pmHop * W)) :
    SymMap c g (pmOpen sy) (pmOpen sy).ham.val (pmOpen sy).data (toMat W).val (fun _ => W) (fun _ => W) := by
  have hv : ∀ (i j : Fin 2), (toMat W).val i j = W i j := fun i j => toMat_val W i j
  have hH : ∀ i j : Fin 2, pmHop i j = if (i : ℕ) = j then (if (i : ℕ) = 0 then 1 else -1) else 0 := by
    intro i j
    rw [pmHop_eq]
    fin_cases i <;> fin_cases j <;> rfl
  constructor
  · intro l; exact hun
  · intro l; exact hun
  · intro α hα β hβ
    change α < 2 at hα
    change β < 2 at hβ
    change ∑ γ ∈ range 2, (toMat W).val α γ * kap c (if γ = β then (if γ = 0 then 1 else -1) else 0) =
      ((eta g : ℝ) : ℂ) * ∑ γ ∈ range 2, (if α = γ then (if α = 0 then (1 : ℂ) else -1) else 0) * (toMat W).val γ β
    have h1 := congrFun (congrFun hhop ⟨α, hα⟩) ⟨β, hβ⟩
    rw [Matrix.smul_apply, mul_apply, mul_apply] at h1
    rw [Finset.sum_range, Finset.sum_range]
    have a1 : ∑ γ : Fin 2, (toMat W).val α γ * kap c (if (γ : ℕ) = β then (if (γ : ℕ) = 0 then 1 else -1) else 0) = ∑ γ : Fin 2, W ⟨α, hα⟩ γ * (pmHop.map (kap c)) γ ⟨β, hβ⟩ := by
      refine Finset.sum_congr rfl fun γ _ => ?_
      rw [← hv, Matrix.map_apply, hH]
    have a2 : ∑ γ : Fin 2, (if α = γ then (if α = 0 then (1 : ℂ) else -1) else 0) * (toMat W).val γ β = ∑ γ : Fin 2, pmHop ⟨α, hα⟩ γ * W γ ⟨β, hβ⟩ := by
      refine Finset.sum_congr rfl fun γ _ => ?_
      rw [← hv, hH]
    rw [a1, a2]
    exact h1
  · intro l
    change W * (0 : Matrix (Fin 2) (Fin 2) ℂ).map (kap c) = (eta g : ℂ) • ((0 : Matrix (Fin 2) (Fin 2) ℂ) * (W : Matrix (Fin 2) (Fin 2) ℂ) : Matrix (Fin 2) (Fin 2) ℂ)
    have z1 : (0 : Matrix (Fin 2) (Fin 2) ℂ).map (kap c) = 0 := Matrix.map_zero _ (map_zero _)
    have z2 : (0 : Matrix (Fin 2) (Fin 2) ℂ) * W = 0 := Matrix.zero_mul _
    have z3 : W * (0 : Matrix (Fin 2) (Fin 2) ℂ) = 0 := Matrix.mul_zero _
    rw [z1, z3]
    refine Eq.symm (Eq.trans (congrArg (fun X : Matrix (Fin 2) (Fin 2) ℂ => (eta g : ℂ) • X) z2) (smul_zero _))
  · intro l
    change W * (padHop pmHop : Matrix (Fin 2) (Fin 2) ℂ).map (kap c) = (eta g : ℂ) • ((padHop pmHop : Matrix (Fin 2) (Fin 2) ℂ) * W)
    rw [pmPad]
    exact hhop
  · intro l
    exact hhop
  · intro l α hα q
    change α < 2 at hα
    change Fin 2 at q
    change (toMat W).val α (([0, 1] : List ℕ).getD q 0) = ∑ p : Fin 2, if ([0, 1] : List ℕ)[(p : ℕ)]? = some α then W p q else 0
    have h1 : ([0, 1] : List ℕ).getD q 0 = q := by fin_cases q <;> rfl
    rw [h1, hv ⟨α, hα⟩ q]
    interval_cases α <;> simp [Fin.sum_univ_two]
  · intro l p β hβ
    change β < 2 at hβ
    change Fin 2 at p
    change (toMat W).val (([0, 1] : List ℕ).getD p 0) β = ∑ q : Fin 2, if ([0, 1] : List ℕ)[(q : ℕ)]? = some β then W p q else 0
    have h1 : ([0, 1] : List ℕ).getD p 0 = p := by fin_cases p <;> rfl
    rw [h1, hv p ⟨β, hβ⟩]
    interval_cases β <;> simp [Fin.sum_univ_two]

theorem kap_eq_cj (c : Bool) : (kap c : ℂ → ℂ) = cj c := by
  cases c <;> rfl

theorem pmSym (c g : Bool) {W : Matrix (Fin 2) (Fin 2) ℂ} (hr : Related W c g 0 pmHop 0 pmHop) :
    SymMap c g (pmOpen sy) (pmOpen sy).ham.val (pmOpen sy).data (toMat W).val (fun _ => W) (fun _ => W) := by
  refine pmSymOf c g W hr.left ?_
  have h1 := hr.hop
  have h2 : ((if g then -1 else 1 : ℂ)) = ((eta g : ℝ) : ℂ) := by cases g <;> simp [eta]
  have h3 : pmHop.map (kap c) = pmHop.map (cj c) := by rw [kap_eq_cj]
  rw [h2] at h1
  rw [h1, h3, smul_smul, eta_sq, one_smul]

/-- The example has a scattering matrix. -/
theorem pmSmatrix (hl : LeadOk exMP (Projectors.default 2) sy 0 pmHop) (hun : SymUnitary sy) {M : LeadModes 2 2} (hM : modes exMP none sy 0 pmHop = .ok M) :
    SymLeads exMP (pmOpen sy) 0 (fun _ => M) ∧ ∃ S, IsSmatrix (T := pmOpen sy) 0 (plainBasis fun _ => M) S := by
  have hs : SymLeads exMP (pmOpen sy) 0 (fun _ => M) := ⟨pmLeadsOk hl, fun _ => rfl, fun _ => hun, pmComputed hM⟩
  refine ⟨hs, ?_⟩
  have hT := pmOpen_ok sy
  have hB := C189_basis hs
  have hr : List.range 2 ≠ [] := by decide
  have hle : ∀ l ∈ List.range 2 ++ List.range 2, l < (pmOpen sy).N := by
    intro l hl
    change l < 2
    simpa using hl
  obtain ⟨ls', kv', h'⟩ := smatrix_succeeds hT hB (fun l => by change [0] ≠ []; simp) (fun l => pmNe) (fun _ => 0) (o := List.range 2) (i := List.range 2) List.pairwise_lt_range
    List.pairwise_lt_range hr hr hle true
  obtain ⟨⟨X, hX⟩, _⟩ := C116_regular hT hB (pm_noBound sy) (smatrixSetup_ok h').2.2.2.2.2.2.2.1
  exact exists_of_solves hT hB h' (fun l => List.mem_range.mpr l.2) hX

/-- C189: the hypotheses of all theorems about the computed modes hold in the example, and there are modes. -/
theorem C189_example :
    (∃ (M : LeadModes 2 2) (S : FullS), SymLeads exMP (pmOpen pmTr) 0 (fun _ => M) ∧ IsSmatrix (T := pmOpen pmTr) 0 (plainBasis fun _ => M) S ∧ 0 < M.p ∧
      ∀ a b : Fin M.p, S 0 a 1 b = S 1 b 0 a) ∧
    (∃ (M : LeadModes 2 2) (S : FullS) (f : Fin 2 → Equiv.Perm (Fin M.p)), SymLeads exMP (pmOpen pmChiral) 0 (fun _ => M) ∧ IsSmatrix (T := pmOpen pmChiral) 0 (plainBasis fun _ => M) S ∧ 0 < M.p ∧
      ∀ a b : Fin M.p, star (S 0 (f 0 a) 1 b) = S 1 (f 1 b) 0 a) ∧
    ∃ (M : LeadModes 2 2) (S : FullS) (π ρ : Fin 2 → Fin M.p → Fin M.p), SymLeads exMP (pmOpen pmPh) 0 (fun _ => M) ∧ IsSmatrix (T := pmOpen pmPh) 0 (plainBasis fun _ => M) S ∧ 0 < M.p ∧
      ∀ a b : Fin M.p, S 0 (ρ 0 a) 1 (π 1 b) = star (S 0 a 1 b) := by
  obtain ⟨r1, r2, r3⟩ := pmRelated
  have hpos : ∀ {sy : Symm 2} {M : LeadModes 2 2}, SymLeads exMP (pmOpen sy) 0 (fun _ => M) → 0 < M.p := by
    intro sy M hs
    have hspec := (hs.sym (0 : Fin 2)).2
    have hspec' : LeadSpec (0 : Matrix (Fin 2) (Fin 2) ℂ) pmHop M.wf M.mom M.vel M.stab.vecslmbdainv M.stab.vecs (padRows M.stab.sqrtHop) fun _ => 1 :=
      (congrArg₂ (fun x y : Matrix (Fin 2) (Fin 2) ℂ => LeadSpec x y M.wf M.mom M.vel M.stab.vecslmbdainv M.stab.vecs (padRows M.stab.sqrtHop) fun _ => 1) (pmAt sy (0 : Fin 2)) pmPad).mp hspec
    have hb : IsBloch 0 pmHop (cexp (-(I * ((-(Real.pi / 2) : ℝ) : ℂ)))) ![1, 0] := by
      rw [pmBloch (Complex.exp_ne_zero _)]
      have : cexp (-(I * ((-(Real.pi / 2) : ℝ) : ℂ))) = I := by
        rw [show -(I * ((-(Real.pi / 2) : ℝ) : ℂ)) = (Real.pi / 2 : ℂ) * I by push_cast; ring]
        exact Complex.exp_pi_div_two_mul_I
      rw [this, inv_I]
      simp
    obtain ⟨c, _, hc⟩ := hspec'.complete _ _ hb
    by_contra h0
    have h1 : M.p = 0 := by omega
    have h2 := congrFun hc 0
    have he : IsEmpty (Fin M.p ⊕ Fin M.p) := by
      refine ⟨fun x => ?_⟩
      rcases x with x | x <;> exact absurd x.2 (by omega)
    have h3 : (M.wf *ᵥ c) 0 = 0 := by
      change ∑ j, M.wf 0 j * c j = 0
      rw [Finset.univ_eq_empty, Finset.sum_empty]
    rw [h3] at h2
    norm_num at h2
  have hex := C189_lead_example
  refine ⟨?_, ?_, ?_⟩
  · obtain ⟨hl, M, hM⟩ := hex pmTr (by simp)
    obtain ⟨hs, S, hS⟩ := pmSmatrix hl ⟨fun U hU => (r1.tr U hU).left, fun U hU => (r1.ph U hU).left, fun U hU => (r1.chiral U hU).left⟩ hM
    refine ⟨M, S, hs, hS, hpos hs, fun a b => ?_⟩
    have h1 := C189_computed_time_reversal (T := pmOpen pmTr) (M := fun _ => M) (pmOpen_ok _) (pmSym true false pmRel1) hs (fun l => rfl) (σ := 1) (fun l => by
      change (1 : Matrix (Fin 2) (Fin 2) ℂ) * (1 : Matrix (Fin 2) (Fin 2) ℂ).map star = ((1 : ℝ) : ℂ) • 1
      rw [Matrix.one_mul, Matrix.map_one _ (star_zero _) (star_one _)]
      simp) hS (0 : Fin 2) (1 : Fin 2) a b
    rw [ofReal_one, one_mul] at h1
    exact h1
  · obtain ⟨hl, M, hM⟩ := hex pmChiral (by simp)
    obtain ⟨hs, S, hS⟩ := pmSmatrix hl ⟨fun U hU => (r2.tr U hU).left, fun U hU => (r2.ph U hU).left, fun U hU => (r2.chiral U hU).left⟩ hM
    obtain ⟨f, _, h1⟩ := C189_computed_chiral (T := pmOpen pmChiral) (M := fun _ => M) (pmOpen_ok _) (pmSym false true (pmRelX false)) hs (fun l => ⟨rfl, rfl⟩) (fun l => by
      have := pmX.1
      have h2 : (!![0, 1; 1, 0] : Matrix (Fin 2) (Fin 2) ℂ)ᴴ = !![0, 1; 1, 0] := by
        ext i j
        fin_cases i <;> fin_cases j <;> simp
      rw [h2] at this
      exact this)
    exact ⟨M, S, f, hs, hS, hpos hs, fun a b => h1 hS (0 : Fin 2) (1 : Fin 2) a b⟩
  · obtain ⟨hl, M, hM⟩ := hex pmPh (by simp)
    obtain ⟨hs, S, hS⟩ := pmSmatrix hl ⟨fun U hU => (r3.tr U hU).left, fun U hU => (r3.ph U hU).left, fun U hU => (r3.chiral U hU).left⟩ hM
    obtain ⟨π, ρ, τ, υ, h1, _, _, h2⟩ := C189_computed_particle_hole (T := pmOpen pmPh) (M := fun _ => M) (pmOpen_ok _) (pmSym true true (pmRelX true)) hs (fun l => ⟨rfl, rfl⟩) (η := 1)
      (.inl rfl) (fun l => by
        change (!![0, 1; 1, 0] : Matrix (Fin 2) (Fin 2) ℂ) * (!![0, 1; 1, 0] : Matrix (Fin 2) (Fin 2) ℂ).map star = ((1 : ℝ) : ℂ) • 1
        ext i j
        fin_cases i <;> fin_cases j <;> simp [mul_apply, Fin.sum_univ_two])
    refine ⟨M, S, π, ρ, hs, hS, hpos hs, fun a b => ?_⟩
    have h3 := h2 hS (0 : Fin 2) (1 : Fin 2) a b
    have h4 : υ (0 : Fin 2) a = 1 := (h1 (0 : Fin 2) a).2.elim id id
    have h5 : τ (1 : Fin 2) b = 1 := (h1 (1 : Fin 2) b).1.elim id id
    rw [h4, h5, ofReal_one, one_mul, one_mul] at h3
    exact h3

end Kwant.Scatt
