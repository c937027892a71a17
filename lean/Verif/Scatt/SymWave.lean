import Verif.Scatt.ModeMap

/-!
C188: what a symmetry does to the waves of an open system, and to the transmissions.
-/

set_option linter.unusedSectionVars false

namespace Kwant.Scatt
open Finset Complex Filter
open Matrix hiding mulVec
open Kwant.Leads hiding Modes
open Kwant.Solver hiding transmission LErr mulVec

variable {T : Open} {E : ℝ} {c g : Bool} {H : ℕ → ℕ → ℂ} {L : (l : Fin T.N) → LeadHam (T.lead l).n (T.lead l).m} {u : ℕ → ℕ → ℂ}
  {R : (l : Fin T.N) → Matrix (Fin (T.lead l).n) (Fin (T.lead l).n) ℂ} {Rm : (l : Fin T.N) → Matrix (Fin (T.lead l).m) (Fin (T.lead l).m) ℂ}

theorem SymMap.attachH (hS : SymMap c g T H L u R Rm) (l : Fin T.N) : Rm l * (T.lead l).hopᴴ.map (kap c) = (eta g : ℂ) • ((L l).hopᴴ * R l) := by
  have h1 : Rm l * (Rm l)ᴴ = 1 := mul_eq_one_comm.mp (hS.unitaryM l)
  have h2 := congrArg conjTranspose (hS.attach l)
  have h3 : star (eta g : ℂ) = eta g := conj_ofReal _
  rw [conjTranspose_mul, conjTranspose_smul, conjTranspose_mul, map_kap_conjTranspose, h3] at h2
  have h4 := congrArg (fun X => Rm l * X * R l) h2
  simp only [Matrix.mul_smul, Matrix.smul_mul] at h4
  rw [Matrix.mul_assoc, Matrix.mul_assoc, hS.unitary, Matrix.mul_one, ← Matrix.mul_assoc, h1, Matrix.one_mul] at h4
  exact h4

theorem SymMap.cellMap (hS : SymMap c g T H L u R Rm) (l : Fin T.N) (E : ℝ) :
    CellMap c g ((T.lead l).at E) (padHop (T.lead l).hop) (((T.withHam H L).lead l).at (eta g * E)) (padHop (L l).hop) (R l) := by
  refine ⟨hS.unitary l, ?_, hS.hop l⟩
  have h1 : (((T.lead l).at E).map (kap c)) = (T.lead l).ham.map (kap c) - (E : ℂ) • 1 := by
    ext i j
    change kap c ((T.lead l).ham i j - (E : ℂ) * (1 : Matrix (Fin (T.lead l).n) (Fin (T.lead l).n) ℂ) i j) = kap c ((T.lead l).ham i j) - (E : ℂ) * _
    rw [map_sub, map_mul, kap_real]
    congr 2
    rw [one_apply]
    split
    · exact map_one _
    · exact map_zero _
  have h2 : (((T.withHam H L).lead l).at (eta g * E) : Matrix (Fin (T.lead l).n) (Fin (T.lead l).n) ℂ) = (L l).ham - ((eta g * E : ℝ) : ℂ) • (1 : Matrix (Fin (T.lead l).n) (Fin (T.lead l).n) ℂ) := rfl
  rw [h1, h2, Matrix.mul_sub, Matrix.sub_mul, hS.cell, Matrix.mul_smul, Matrix.mul_one, Matrix.smul_mul, Matrix.one_mul, smul_sub, smul_smul, ofReal_mul, ← mul_assoc, eta_sq, one_mul]

/-- The image of a wave in the scattering region. -/
noncomputable def imgRegion (c : Bool) (T : Open) (u : ℕ → ℕ → ℂ) (ψ : ℕ → ℂ) (α : ℕ) : ℂ := ∑ β ∈ range T.ham.rows, u α β * kap c (ψ β)

theorem kap_fromLead (c : Bool) (l : Fin T.N) (f : Fin (T.lead l).m → ℂ) (α : ℕ) : kap c (T.fromLead l f α) = T.fromLead l (fun p => kap c (f p)) α := by
  unfold Open.fromLead
  rw [map_sum]
  refine Finset.sum_congr rfl fun p _ => ?_
  split
  · rfl
  · exact map_zero _

theorem fromLead_smul (l : Fin T.N) (z : ℂ) (f : Fin (T.lead l).m → ℂ) (α : ℕ) : T.fromLead l (z • f) α = z * T.fromLead l f α := by
  unfold Open.fromLead
  rw [Finset.mul_sum]
  refine Finset.sum_congr rfl fun p _ => ?_
  split
  · rfl
  · rw [mul_zero]

theorem SymMap.fromLead (hS : SymMap c g T H L u R Rm) (hT : T.Ok) (l : Fin T.N) (f : Fin (T.lead l).m → ℂ) {α : ℕ} (hα : α < T.ham.rows) :
    ∑ γ ∈ range T.ham.rows, u α γ * T.fromLead l f γ = T.fromLead l (Rm l *ᵥ f) α := by
  rw [sum_fromLead hT (fun γ => u α γ)]
  simp only [hS.into l α hα, Open.fromLead, Finset.sum_mul]
  rw [Finset.sum_comm]
  refine Finset.sum_congr rfl fun p _ => ?_
  by_cases h : (T.iface l)[(p : ℕ)]? = some α
  · simp only [if_pos h]
    rfl
  · simp only [if_neg h, zero_mul, Finset.sum_const_zero]

theorem SymMap.amp (hS : SymMap c g T H L u R Rm) (hT : T.Ok) (l : Fin T.N) (ψ : ℕ → ℂ) : T.amp (imgRegion c T u ψ) l = Rm l *ᵥ fun p => kap c (T.amp ψ l p) := by
  ext p
  change ∑ β ∈ range T.ham.rows, u ((T.iface l).getD p 0) β * kap c (ψ β) = ∑ q, Rm l p q * kap c (ψ ((T.iface l).getD q 0))
  have h1 := sum_fromLead hT (fun β => kap c (ψ β)) l (fun q => Rm l p q)
  have h2 : ∑ q : Fin (T.lead l).m, Rm l p q * kap c (ψ ((T.iface l).getD q 0)) = ∑ q : Fin (T.lead l).m, kap c (ψ ((T.iface l).getD q 0)) * Rm l p q :=
    Finset.sum_congr rfl fun q _ => mul_comm _ _
  rw [h2, ← h1]
  refine Finset.sum_congr rfl fun β hβ => ?_
  rw [hS.onto l p β (Finset.mem_range.mp hβ), mul_comm]
  rfl

theorem SymMap.leadWave (hS : SymMap c g T H L u R Rm) (hT : T.Ok) (l : Fin T.N) (ψ : ℕ → ℂ) {Ψ : ℕ → Fin (T.lead l).n → ℂ}
    (hL : LeadSolution ((T.lead l).at E) (T.lead l).hop (T.amp ψ l) Ψ) :
    LeadSolution (((T.withHam H L).lead l).at (eta g * E)) (L l).hop (T.amp (imgRegion c T u ψ) l) (fun j => CellMap.img c (R l) (Ψ j)) := by
  have hm := hS.cellMap l E
  have e6 := eta_sq g
  constructor
  · have h1 := congrArg (CellMap.img c (R l)) hL.first
    have h2 : CellMap.img c (R l) ((T.lead l).hop *ᵥ T.amp ψ l) = (eta g : ℂ) • ((L l).hop *ᵥ T.amp (imgRegion c T u ψ) l) := by
      unfold CellMap.img
      rw [kap_mulVec, Matrix.mulVec_mulVec, hS.attach, Matrix.smul_mulVec, ← Matrix.mulVec_mulVec, hS.amp hT]
    rw [img_add, img_add, img_mulVec hm.cell, img_mulVec hm.hopH, h2, img_zero, ← smul_add, ← smul_add] at h1
    have h3 := congrArg (fun x => (eta g : ℂ) • x) h1
    simp only [smul_smul (eta g : ℂ) (eta g : ℂ), e6, one_smul, smul_zero] at h3
    exact h3
  · intro j
    have h1 := congrArg (CellMap.img c (R l)) (hL.bulk j)
    rw [img_add, img_add, img_mulVec hm.cell, img_mulVec hm.hopH, img_mulVec hm.hop, img_zero, ← smul_add, ← smul_add] at h1
    have h3 := congrArg (fun x => (eta g : ℂ) • x) h1
    simp only [smul_smul (eta g : ℂ) (eta g : ℂ), e6, one_smul, smul_zero] at h3
    exact h3

/-- The image of a wave is a wave of the other system. -/
theorem SymMap.wave (hS : SymMap c g T H L u R Rm) (hT : T.Ok) {ψ : ℕ → ℂ} {Ψ : (l : Fin T.N) → ℕ → Fin (T.lead l).n → ℂ} (hw : InfWave T E ψ Ψ) :
    InfWave (T.withHam H L) (eta g * E) (imgRegion c T u ψ) (fun l j => CellMap.img c (R l) (Ψ l j)) := by
  constructor
  · intro α hα
    have hα' : α < T.ham.rows := hα
    change (∑ β ∈ range T.ham.rows, H α β * imgRegion c T u ψ β) - ((eta g * E : ℝ) : ℂ) * imgRegion c T u ψ α +
      (∑ l : Fin T.N, T.fromLead l ((L l).hopᴴ *ᵥ CellMap.img c (R l) (Ψ l 0)) α) = 0
    have h1 : ∑ γ ∈ range T.ham.rows, u α γ * kap c ((∑ β ∈ range T.ham.rows, T.ham.val γ β * ψ β) - E * ψ γ + ∑ l, T.fromLead l ((T.lead l).hopᴴ *ᵥ Ψ l 0) γ) = 0 := by
      refine Finset.sum_eq_zero fun γ hγ => ?_
      rw [hw.region γ (Finset.mem_range.mp hγ), map_zero, mul_zero]
    simp only [map_add, map_sub, map_sum, map_mul, kap_real, kap_fromLead, mul_add, mul_sub, Finset.sum_add_distrib, Finset.sum_sub_distrib, Finset.mul_sum] at h1
    have e1 : ∑ γ ∈ range T.ham.rows, ∑ β ∈ range T.ham.rows, u α γ * (kap c (T.ham.val γ β) * kap c (ψ β)) = eta g * ∑ β ∈ range T.ham.rows, H α β * imgRegion c T u ψ β := by
      rw [Finset.sum_comm]
      have e2 : ∀ β ∈ range T.ham.rows, ∑ γ ∈ range T.ham.rows, u α γ * (kap c (T.ham.val γ β) * kap c (ψ β)) =
          eta g * ∑ γ ∈ range T.ham.rows, H α γ * (u γ β * kap c (ψ β)) := by
        intro β hβ
        have e3 := congrArg (fun z => z * kap c (ψ β)) (hS.region α hα' β (Finset.mem_range.mp hβ))
        simp only [Finset.sum_mul, mul_assoc] at e3
        exact e3
      rw [Finset.sum_congr rfl e2, ← Finset.mul_sum, Finset.sum_comm]
      simp only [imgRegion, Finset.mul_sum]
    have e4 : ∑ γ ∈ range T.ham.rows, u α γ * (E * kap c (ψ γ)) = E * imgRegion c T u ψ α := by
      rw [imgRegion, Finset.mul_sum]
      exact Finset.sum_congr rfl fun γ _ => by ring
    have e5 : ∑ γ ∈ range T.ham.rows, ∑ l, u α γ * T.fromLead l (fun p => kap c (((T.lead l).hopᴴ *ᵥ Ψ l 0) p)) γ =
        eta g * ∑ l : Fin T.N, T.fromLead l ((L l).hopᴴ *ᵥ CellMap.img c (R l) (Ψ l 0)) α := by
      rw [Finset.sum_comm, Finset.mul_sum]
      refine Finset.sum_congr rfl fun l _ => ?_
      rw [hS.fromLead hT l _ hα', ← fromLead_smul]
      congr 1
      rw [kap_mulVec, Matrix.mulVec_mulVec, hS.attachH, Matrix.smul_mulVec, ← Matrix.mulVec_mulVec]
      rfl
    rw [e1, e4, e5] at h1
    have e6 := eta_sq g
    rw [ofReal_mul]
    linear_combination (eta g : ℂ) * h1 - (∑ β ∈ range T.ham.rows, H α β * imgRegion c T u ψ β) * e6 -
      (∑ l : Fin T.N, T.fromLead l ((L l).hopᴴ *ᵥ CellMap.img c (R l) (Ψ l 0)) α) * e6
  · intro l
    exact hS.leadWave hT l ψ (hw.lead l)

theorem sg_kap {T : Open} {B : LeadBasis T} (hB : BasisOk E B) (l : Fin T.N) (i) : kap c (B.sg l i) = B.sg l i ∧ B.sg l i * B.sg l i = 1 := by
  rcases (hB.spec l).sign i with h | h <;> rw [h] <;> simp

/-- The amplitudes of the modes in the image of a wave. -/
theorem asymp_img {n m : ℕ} {M M' : LeadModes n m} {sg a : Fin M.p ⊕ Fin M.p → ℂ} {sg' : Fin M'.p ⊕ Fin M'.p → ℂ} {Ψ : ℕ → Fin n → ℂ} (h : Asymp M sg a Ψ) (R : Matrix (Fin n) (Fin n) ℂ)
    {D : Matrix (Fin M'.p ⊕ Fin M'.p) (Fin M.p ⊕ Fin M.p) ℂ} (hD : ∀ i, CellMap.img c R (M.wf.col i) = ∑ j, D j i • M'.wf.col j)
    (hk : ∀ j i, D j i ≠ 0 → cexp (-(I * M'.mom j)) = kap c (cexp (-(I * M.mom i)))) (hsg' : ∀ j, sg' j * sg' j = 1) :
    Asymp M' sg' (fun j => ∑ i, sg' j * D j i * kap c (sg i) * kap c (a i)) (fun j => CellMap.img c R (Ψ j)) := by
  unfold Asymp at h ⊢
  have h1 := ((img_continuous (c := c) R).tendsto 0).comp h
  rw [img_zero] at h1
  refine h1.congr fun j => ?_
  have pw : ∀ k : ℝ, cexp (I * k * (j + 1)) = (cexp (-(I * k)))⁻¹ ^ (j + 1) := by
    intro k
    rw [← Complex.exp_neg, neg_neg, ← Complex.exp_nat_mul]
    congr 1
    push_cast
    ring
  simp only [Function.comp]
  have h2 : Ψ j - ∑ i, (a i * sg i * cexp (I * M.mom i * (j + 1))) • M.wf.col i = Ψ j + (-1 : ℂ) • ∑ i, (a i * sg i * cexp (I * M.mom i * (j + 1))) • M.wf.col i := by
    rw [neg_one_smul, sub_eq_add_neg]
  rw [h2, img_add, img_smul, img_sum, map_neg, map_one, neg_one_smul, ← sub_eq_add_neg]
  congr 1
  simp only [img_smul, hD, Finset.smul_sum]
  rw [Finset.sum_comm]
  refine Finset.sum_congr rfl fun j' _ => ?_
  simp only [smul_smul]
  rw [← Finset.sum_smul, Finset.sum_mul, Finset.sum_mul]
  congr 1
  refine Finset.sum_congr rfl fun i _ => ?_
  by_cases hz : D j' i = 0
  · rw [hz]; simp
  · rw [pw, pw, hk j' i hz, map_mul, map_mul, map_pow, map_inv₀]
    linear_combination (-(kap c (a i) * kap c (sg i) * ((kap c) (cexp (-(I * (M.mom i)))))⁻¹ ^ (j + 1) * D j' i)) * hsg' j'

end Kwant.Scatt
