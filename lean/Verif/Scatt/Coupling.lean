import Verif.Scatt.Phys
import Verif.Leads.LeadSelfEx
import Mathlib.Analysis.Matrix.PosDef

/-!
C117: the relation between the modes and the self-energy of one lead.
-/

set_option linter.unusedSectionVars false

namespace Kwant.Scatt
open Finset Complex Filter
open Matrix hiding mulVec
open Kwant.Leads hiding Modes
open Kwant.Solver hiding transmission LErr mulVec

/-! ### Algebra of the stabilized modes -/

/-- The columns of the incoming modes. -/
def inIdx {p q : ℕ} : Fin p → (Fin p ⊕ Fin p) ⊕ Fin q := Sum.inl ∘ Sum.inl

theorem mulVec_inOut {p q r : ℕ} (X : Matrix (Fin r) ((Fin p ⊕ Fin p) ⊕ Fin q) ℂ) (c : (Fin p ⊕ Fin p) ⊕ Fin q → ℂ) :
    X *ᵥ c = X.submatrix id inIdx *ᵥ (c ∘ inIdx) + X.submatrix id outCols *ᵥ (c ∘ (outCols : Fin p ⊕ Fin q → _)) := by
  ext x
  rw [Pi.add_apply, Matrix.mulVec, Matrix.mulVec, Matrix.mulVec, dotProduct, dotProduct, dotProduct, Fintype.sum_sum_type, Fintype.sum_sum_type, Fintype.sum_sum_type, add_assoc]
  rfl

section
variable {p q r : ℕ} {X Y : Matrix (Fin r) ((Fin p ⊕ Fin p) ⊕ Fin q) ℂ} {Xi : Matrix (Fin p ⊕ Fin q) (Fin r) ℂ}

/-- The inverse of the outgoing modes, restricted to the propagating ones. -/
def propRows (Xi : Matrix (Fin p ⊕ Fin q) (Fin r) ℂ) : Matrix (Fin p) (Fin r) ℂ := Xi.submatrix Sum.inl id

theorem coupling_algebra (hX1 : X.submatrix id outCols * Xi = 1) (hX2 : Xi * X.submatrix id outCols = 1)
    (hcur : I • (Xᴴ * Y - Yᴴ * X) = diagonal (Sum.elim (Sum.elim (fun _ => -1) fun _ => 1) fun _ => 0)) :
    I • (Y.submatrix id outCols * Xi - (Y.submatrix id outCols * Xi)ᴴ) = (propRows Xi)ᴴ * propRows Xi ∧
    Y.submatrix id inIdx = Y.submatrix id outCols * Xi * X.submatrix id inIdx + I • ((propRows Xi)ᴴ * (propRows Xi * X.submatrix id inIdx)) ∧
    (propRows Xi * X.submatrix id inIdx)ᴴ * (propRows Xi * X.submatrix id inIdx) = 1 := by
  set Xo := X.submatrix id (outCols : Fin p ⊕ Fin q → _) with hXo
  set Yo := Y.submatrix id (outCols : Fin p ⊕ Fin q → _) with hYo
  set Xn := X.submatrix id (inIdx : Fin p → (Fin p ⊕ Fin p) ⊕ Fin q) with hXn
  set Yn := Y.submatrix id (inIdx : Fin p → (Fin p ⊕ Fin p) ⊕ Fin q) with hYn
  have c1 : I • (Xoᴴ * Yo - Yoᴴ * Xo) = diagonal (Sum.elim (fun _ => 1) fun _ => 0) := by
    ext a b
    have := congrFun (congrFun hcur (outCols a)) (outCols b)
    refine Eq.trans this ?_
    rw [diagonal_apply, diagonal_apply]
    rcases a with a | a <;> rcases b with b | b <;> simp [outCols]
  have c2 : Xoᴴ * Yn - Yoᴴ * Xn = 0 := by
    ext a b
    have := congrFun (congrFun hcur (outCols a)) (inIdx b)
    have h1 : I * (Xoᴴ * Yn - Yoᴴ * Xn) a b = 0 := by
      refine Eq.trans this ?_
      rw [diagonal_apply, if_neg]
      rcases a with a | a <;> simp [outCols, inIdx]
    exact (mul_eq_zero.mp h1).resolve_left I_ne_zero
  have c3 : I • (Xnᴴ * Yn - Ynᴴ * Xn) = -1 := by
    ext a b
    have := congrFun (congrFun hcur (inIdx a)) (inIdx b)
    refine Eq.trans this ?_
    rw [diagonal_apply, Matrix.neg_apply, one_apply]
    by_cases hab : a = b
    · rw [hab, if_pos rfl, if_pos rfl]; rfl
    · rw [if_neg hab, if_neg, neg_zero]
      intro h
      exact hab (Sum.inl.inj (Sum.inl.inj h))
  have hX1' : Xiᴴ * Xoᴴ = 1 := by rw [← conjTranspose_mul, hX1, conjTranspose_one]
  have hK : I • (Yo * Xi - (Yo * Xi)ᴴ) = (propRows Xi)ᴴ * propRows Xi := by
    have e : I • (Yo * Xi - (Yo * Xi)ᴴ) = Xiᴴ * (I • (Xoᴴ * Yo - Yoᴴ * Xo)) * Xi := by
      rw [Matrix.mul_smul, Matrix.smul_mul, Matrix.mul_sub, Matrix.sub_mul]
      congr 2
      · rw [← Matrix.mul_assoc Xiᴴ, hX1', Matrix.one_mul]
      · rw [Matrix.mul_assoc, Matrix.mul_assoc, hX1, Matrix.mul_one, conjTranspose_mul]
    rw [e, c1]
    ext a b
    rw [mul_apply, mul_apply, Fintype.sum_sum_type]
    simp [mul_diagonal, propRows]
  have hYin : Yn = (Yo * Xi)ᴴ * Xn := by
    have h1 := sub_eq_zero.mp c2
    have h2 := congrArg (Xiᴴ * ·) h1
    simp only [← Matrix.mul_assoc, hX1', Matrix.one_mul] at h2
    rw [h2, conjTranspose_mul]
  have hKK : (Yo * Xi)ᴴ = Yo * Xi + I • ((propRows Xi)ᴴ * propRows Xi) := by
    rw [← hK, smul_smul, I_mul_I, neg_one_smul]
    abel
  refine ⟨hK, ?_, ?_⟩
  · rw [hYin, hKK, Matrix.add_mul, Matrix.smul_mul, Matrix.mul_assoc ((propRows Xi)ᴴ)]
  · have h1 : I • (Xnᴴ * Yn - Ynᴴ * Xn) = -((propRows Xi * Xn)ᴴ * (propRows Xi * Xn)) := by
      have h2 : Ynᴴ = Xnᴴ * (Yo * Xi) := by rw [hYin, conjTranspose_mul, conjTranspose_conjTranspose]
      rw [h2, hYin, hKK, ← Matrix.mul_assoc, ← Matrix.sub_mul, ← Matrix.mul_sub, add_sub_cancel_left, Matrix.mul_smul, Matrix.smul_mul, smul_smul, I_mul_I, neg_one_smul,
        conjTranspose_mul]
      simp only [Matrix.mul_assoc]
    rw [c3] at h1
    exact (neg_injective h1).symm
end

/-! ### Waves in a lead without surface states -/

section
variable {n m : ℕ} {h : Matrix (Fin n) (Fin n) ℂ} {hhop : Matrix (Fin n) (Fin m) ℂ} {M : LeadModes n m} {sg : Fin M.p ⊕ Fin M.p → ℂ}

/-- The hypotheses about one lead, see `BasisOk`. -/
structure LeadData (h : Matrix (Fin n) (Fin n) ℂ) (hhop : Matrix (Fin n) (Fin m) ℂ) (M : LeadModes n m) (sg : Fin M.p ⊕ Fin M.p → ℂ) : Prop where
  herm : h.IsHermitian
  spec : LeadSpec h (padHop hhop) M.wf M.mom M.vel M.stab.vecslmbdainv M.stab.vecs (padRows M.stab.sqrtHop) sg
  incoming : ∀ i, M.vel (.inl i) < 0
  outgoing : ∀ i, 0 < M.vel (.inr i)
  number : M.p + M.q = M.r
  size : m ≤ n ∨ hhop = 0 ∧ M.r = 0

theorem LeadData.current (hd : LeadData h hhop M sg) : I • (M.stab.vecslmbdainvᴴ * M.stab.vecs - M.stab.vecsᴴ * M.stab.vecslmbdainv) =
    diagonal (Sum.elim (Sum.elim (fun _ => -1) fun _ => 1) fun _ => 0) := by
  rw [hd.spec.current]
  congr 1
  ext i
  rcases i with (i | i) | i
  · rw [Sum.elim_inl, Sum.elim_inl, Sum.elim_inl, abs_of_neg (hd.incoming i), div_neg, div_self (hd.incoming i).ne, ofReal_neg, ofReal_one]
  · rw [Sum.elim_inl, Sum.elim_inl, Sum.elim_inr, abs_of_pos (hd.outgoing i), div_self (hd.outgoing i).ne', ofReal_one]
  · rfl

theorem leadSolution_sub {φ φ' : Fin m → ℂ} {Ψ Ψ' : ℕ → Fin n → ℂ} (h1 : LeadSolution h hhop φ Ψ) (h2 : LeadSolution h hhop φ' Ψ') :
    LeadSolution h hhop (φ - φ') (fun j => Ψ j - Ψ' j) := by
  constructor
  · have a1 := h1.first
    have a2 := h2.first
    rw [mulVec_sub, mulVec_sub, mulVec_sub, ← sub_self (0 : Fin n → ℂ)]
    nth_rewrite 1 [← a1]
    rw [← a2]
    abel
  · intro j
    have a1 := h1.bulk j
    have a2 := h2.bulk j
    rw [mulVec_sub, mulVec_sub, mulVec_sub, ← sub_self (0 : Fin n → ℂ)]
    nth_rewrite 1 [← a1]
    rw [← a2]
    abel

/-- A wave in a lead without surface states is determined by its value at the interface and the incoming amplitudes. -/
theorem lead_wave_unique (hd : LeadData h hhop M sg) (hn : NoSurfaceState h hhop) {φ : Fin m → ℂ} {Ψ Ψ' : ℕ → Fin n → ℂ} {a a' : Fin M.p ⊕ Fin M.p → ℂ} (h1 : LeadSolution h hhop φ Ψ)
    (h1' : LeadSolution h hhop φ Ψ') (hA : Asymp M sg a Ψ) (hA' : Asymp M sg a' Ψ') (hin : ∀ i, a (.inl i) = a' (.inl i)) : Ψ = Ψ' ∧ a = a' := by
  have hs := leadSolution_sub h1 h1'
  rw [sub_self] at hs
  have hAs := hA.sub hA'
  have hf := lead_flux hd.herm hd.spec hd.incoming hd.outgoing hs hs hAs hAs
  simp only [hin, sub_self, star_zero, zero_mul, mul_zero, Finset.sum_const_zero, sub_zero, zero_dotProduct, mulVec_zero, dotProduct_zero] at hf
  have h2 : ((∑ i, Complex.normSq (a (.inr i) - a' (.inr i)) : ℝ) : ℂ) = 0 := by
    rw [hf, ofReal_sum]
    refine Finset.sum_congr rfl fun i _ => ?_
    rw [star_def, Complex.normSq_eq_conj_mul_self]
  rw [ofReal_eq_zero, Finset.sum_eq_zero_iff_of_nonneg (fun i _ => Complex.normSq_nonneg _)] at h2
  have h3 : ∀ i, a i - a' i = 0 := by
    rintro (i | i)
    · rw [hin, sub_self]
    · exact Complex.normSq_eq_zero.mp (h2 i (Finset.mem_univ _))
  have h4 : Tendsto (fun j => Ψ j - Ψ' j) atTop (nhds 0) := by
    have := hAs
    unfold Asymp at this
    simp only [h3, zero_mul, zero_smul, Finset.sum_const_zero, sub_zero] at this
    exact this
  exact ⟨funext fun j => sub_eq_zero.mp (hn _ hs h4 j), funext fun i => sub_eq_zero.mp (h3 i)⟩

/-- The amplitudes of all modes, from the incoming ones and the outgoing and evanescent ones. -/
def joinAmps {p q : ℕ} (cin : Fin p → ℂ) (cout : Fin p ⊕ Fin q → ℂ) : (Fin p ⊕ Fin p) ⊕ Fin q → ℂ := Sum.elim (Sum.elim cin (cout ∘ Sum.inl)) (cout ∘ Sum.inr)

theorem joinAmps_in {p q : ℕ} (cin : Fin p → ℂ) (cout : Fin p ⊕ Fin q → ℂ) : joinAmps cin cout ∘ inIdx = cin := rfl

theorem joinAmps_out {p q : ℕ} (cin : Fin p → ℂ) (cout : Fin p ⊕ Fin q → ℂ) : joinAmps cin cout ∘ outCols = cout := by
  ext i
  rcases i with i | i <;> rfl

/-- What is known about the coupling of a lead: `W` is the coupling of the outgoing modes to the interface, `U` a change of basis. -/
structure Coupling (h : Matrix (Fin n) (Fin n) ℂ) (hhop : Matrix (Fin n) (Fin m) ℂ) (M : LeadModes n m) (sg : Fin M.p ⊕ Fin M.p → ℂ) (Sig : Matrix (Fin m) (Fin m) ℂ)
    (W : Matrix (Fin m) (Fin M.p) ℂ) (U : Matrix (Fin M.p) (Fin M.p) ℂ) : Prop where
  gamma : I • (Sig - Sigᴴ) = W * Wᴴ
  unit : Uᴴ * U = 1
  onto : ∃ Z, Wᴴ * Z = U
  /-- For all amplitudes at the interface and of the incoming modes there is a wave. -/
  exist : ∀ φ a, ∃ Ψ, LeadSolution h hhop φ Ψ ∧ Asymp M sg (Sum.elim a (Wᴴ *ᵥ φ - U *ᵥ a)) Ψ ∧ hhopᴴ *ᵥ Ψ 0 = Sig *ᵥ φ + I • (W *ᵥ (U *ᵥ a))
  unique : ∀ φ Ψ a, LeadSolution h hhop φ Ψ → Asymp M sg a Ψ → hhopᴴ *ᵥ Ψ 0 = Sig *ᵥ φ + I • (W *ᵥ (U *ᵥ (a ∘ Sum.inl))) ∧ a ∘ Sum.inr = Wᴴ *ᵥ φ - U *ᵥ (a ∘ Sum.inl)

theorem outgoing_asymp (hd : LeadData h hhop M sg) {Ψ : ℕ → Fin n → ℂ} (hΨ : OutgoingWave h (padHop hhop) Ψ) : ∃ c, Asymp M sg (Sum.elim 0 c) Ψ := by
  obtain ⟨c, hc⟩ := outgoing_form (Φ := 0) (E := 0) hd.spec hd.incoming hΨ
  refine ⟨c, ?_⟩
  unfold Asymp
  refine hc.congr fun j => ?_
  congr 1
  rw [outWave_split, Fintype.sum_sum_type]
  have h0 : (Sum.elim c 0 ∘ Sum.inr : Fin M.q → ℂ) = 0 := rfl
  simp only [Sum.elim_inl, Sum.elim_inr, Pi.zero_apply, zero_mul, zero_smul, Finset.sum_const_zero, zero_add]
  rw [h0, mulVec_zero, mulVec_zero, add_zero]
  refine Finset.sum_congr rfl fun i _ => ?_
  have h1 : cexp (I * M.mom (.inr i) * (j + 1)) = (cexp (-(I * M.mom (.inr i))))⁻¹ ^ j * (cexp (-(I * M.mom (.inr i))))⁻¹ := by
    rw [← Complex.exp_neg, neg_neg, ← Complex.exp_nat_mul, ← Complex.exp_add]
    congr 1
    ring
  ext x
  simp only [Pi.smul_apply, smul_eq_mul, col_apply, h1, outPhi, fromCols_apply_inl, of_apply]
  ring

theorem lead_coupling (hd : LeadData h hhop M sg) {Sig : Matrix (Fin m) (Fin m) ℂ} (hS : IsSelfenergy h hhop Sig) : ∃ W U, Coupling h hhop M sg Sig W U := by
  have hn := C115_necessary hS
  have hm := hop_factor (vm := M.stab.sqrtHop) hd.size
  obtain ⟨Xi, hX1, hX2⟩ := outgoing_basis hd.spec hd.outgoing hn hm hd.number
  obtain ⟨u, Φ, F, hf, hu, ho⟩ := all_modes hd.spec
  obtain ⟨k1, k2, k3⟩ := coupling_algebra hX1 hX2 hd.current
  have hH : hhopᴴ = M.stab.sqrtHop * uᴴ := by
    conv_lhs => rw [hm u hf]
    rw [conjTranspose_mul, conjTranspose_conjTranspose]
  -- all waves
  have build : ∀ φ a, ∃ Ψ, LeadSolution h hhop φ Ψ ∧
      Asymp M sg (Sum.elim a (propRows Xi *ᵥ (M.stab.sqrtHopᴴ *ᵥ φ) - (propRows Xi * M.stab.vecslmbdainv.submatrix id inIdx) *ᵥ a)) Ψ ∧
      hhopᴴ *ᵥ Ψ 0 = (M.stab.sqrtHop * (M.stab.vecs.submatrix id outCols * Xi) * M.stab.sqrtHopᴴ) *ᵥ φ +
        I • ((M.stab.sqrtHop * (propRows Xi)ᴴ) *ᵥ ((propRows Xi * M.stab.vecslmbdainv.submatrix id inIdx) *ᵥ a)) := by
    intro φ a
    set co := Xi *ᵥ (M.stab.sqrtHopᴴ *ᵥ φ - M.stab.vecslmbdainv.submatrix id inIdx *ᵥ a) with hco
    have hXc : M.stab.vecslmbdainv *ᵥ joinAmps a co = M.stab.sqrtHopᴴ *ᵥ φ := by
      rw [mulVec_inOut, joinAmps_in, joinAmps_out, hco, mulVec_mulVec, hX1, one_mulVec, add_sub_cancel]
    refine ⟨modeWave (allPhi M.wf M.mom sg Φ) (fun i => (cexp (-(I * M.mom i)))⁻¹) F (joinAmps a co), modeWave_solution ho hf (hm u hf) hXc, ?_, ?_⟩
    · have h1 := modeWave_decay (Φ := allPhi M.wf M.mom sg Φ) (lam := fun i => (cexp (-(I * M.mom i)))⁻¹) ho.decay (joinAmps a co)
      unfold Asymp
      simp only [asymp_wave _ _ Φ F]
      have h2 : (joinAmps a co ∘ Sum.inl : Fin M.p ⊕ Fin M.p → ℂ) = Sum.elim a (propRows Xi *ᵥ (M.stab.sqrtHopᴴ *ᵥ φ) - (propRows Xi * M.stab.vecslmbdainv.submatrix id inIdx) *ᵥ a) := by
        ext i
        rcases i with i | i
        · rfl
        · change co (.inl i) = _
          rw [hco, ← mulVec_mulVec, ← mulVec_sub]
          rfl
      rw [h2] at h1
      exact h1
    · have hy : uᴴ *ᵥ (allPhi M.wf M.mom sg Φ *ᵥ joinAmps a co) = M.stab.vecs *ᵥ joinAmps a co := by rw [mulVec_mulVec, ← ho.eY]
      rw [hH, modeWave, pow_zero, one_mulVec, ← mulVec_mulVec, hy, mulVec_inOut, joinAmps_in, joinAmps_out, k2, add_mulVec, smul_mulVec, hco, mulVec_sub, mulVec_sub]
      simp only [mulVec_mulVec, mulVec_add, mulVec_sub, Matrix.mul_assoc, mulVec_smul M.stab.sqrtHop]
      abel
  have sigma : Sig = M.stab.sqrtHop * (M.stab.vecs.submatrix id outCols * Xi) * M.stab.sqrtHopᴴ := by
    have key : ∀ φ, Sig *ᵥ φ = (M.stab.sqrtHop * (M.stab.vecs.submatrix id outCols * Xi) * M.stab.sqrtHopᴴ) *ᵥ φ := by
      intro φ
      obtain ⟨Ψ, a1, a2, _, a4⟩ := hS φ
      obtain ⟨c, hc⟩ := outgoing_asymp hd a2
      obtain ⟨Ψ', b1, b2, b3⟩ := build φ 0
      obtain ⟨e, _⟩ := lead_wave_unique hd hn a1 b1 hc b2 (fun i => rfl)
      rw [a4, e, b3, mulVec_zero, mulVec_zero, smul_zero, add_zero]
    ext i j
    have h3 := congrFun (key (Pi.single j 1)) i
    simpa using h3
  refine ⟨M.stab.sqrtHop * (propRows Xi)ᴴ, propRows Xi * M.stab.vecslmbdainv.submatrix id inIdx, ?_, k3, ?_, ?_, ?_⟩
  · rw [sigma]
    have e : I • (M.stab.sqrtHop * (M.stab.vecs.submatrix id outCols * Xi) * M.stab.sqrtHopᴴ - (M.stab.sqrtHop * (M.stab.vecs.submatrix id outCols * Xi) * M.stab.sqrtHopᴴ)ᴴ) =
        M.stab.sqrtHop * (I • (M.stab.vecs.submatrix id outCols * Xi - (M.stab.vecs.submatrix id outCols * Xi)ᴴ)) * M.stab.sqrtHopᴴ := by
      rw [Matrix.mul_smul, Matrix.smul_mul, Matrix.mul_sub, Matrix.sub_mul]
      congr 2
      simp only [conjTranspose_mul, conjTranspose_conjTranspose, Matrix.mul_assoc]
    rw [e, k1]
    simp only [conjTranspose_mul, conjTranspose_conjTranspose, Matrix.mul_assoc]
  · obtain ⟨u', _, _, hp, _⟩ := hd.spec.solves
    rcases hd.size with hmn | ⟨_, hr⟩
    · refine ⟨of fun x i => sg (.inl i) * M.wf (Fin.castLE hmn x) (.inl i), ?_⟩
      rw [conjTranspose_mul, conjTranspose_conjTranspose, Matrix.mul_assoc]
      congr 1
      ext y i
      have h1 := congrFun (hp (.inl i)).1 y
      rw [submatrix_apply, id]
      refine Eq.symm (Eq.trans h1 ?_)
      rw [Pi.smul_apply, smul_eq_mul, Matrix.mulVec, dotProduct, mul_apply, Finset.mul_sum]
      rw [← Finset.sum_subset (Finset.subset_univ (Finset.univ.image (Fin.castLE hmn))), Finset.sum_image (fun _ _ _ _ h => Fin.castLE_injective hmn h)]
      · refine Finset.sum_congr rfl fun x _ => ?_
        have e2 : (padRows M.stab.sqrtHop : Matrix (Fin n) (Fin M.r) ℂ) (Fin.castLE hmn x) y = M.stab.sqrtHop x y := dif_pos x.2
        rw [conjTranspose_apply, conjTranspose_apply, e2, of_apply, col_apply]
        ring
      · intro x _ hx
        have e2 : (padRows M.stab.sqrtHop : Matrix (Fin n) (Fin M.r) ℂ) x y = 0 := by
          refine dif_neg fun hlt => hx ?_
          rw [Finset.mem_image]
          exact ⟨⟨x, hlt⟩, Finset.mem_univ _, Fin.ext rfl⟩
        rw [conjTranspose_apply, e2, star_zero, zero_mul, mul_zero]
    · refine ⟨0, ?_⟩
      rw [Matrix.mul_zero]
      have := hd.number
      ext i
      exact absurd i.2 (by omega)
  · intro φ a
    obtain ⟨Ψ, b1, b2, b3⟩ := build φ a
    refine ⟨Ψ, b1, ?_, ?_⟩
    · rw [conjTranspose_mul, conjTranspose_conjTranspose, ← mulVec_mulVec]
      exact b2
    · rw [sigma]
      exact b3
  · intro φ Ψ a h1 h2
    obtain ⟨Ψ', b1, b2, b3⟩ := build φ (a ∘ Sum.inl)
    obtain ⟨e1, e2⟩ := lead_wave_unique hd hn h1 b1 h2 b2 (fun i => rfl)
    constructor
    · rw [e1, sigma]
      exact b3
    · rw [conjTranspose_mul, conjTranspose_conjTranspose, ← mulVec_mulVec]
      conv_lhs => rw [e2]
      rfl

open scoped ComplexOrder in
/-- The number of positive eigenvalues of `Γ` is the number of modes. -/
theorem coupling_rank {Sig : Matrix (Fin m) (Fin m) ℂ} {W : Matrix (Fin m) (Fin M.p) ℂ} {U : Matrix (Fin M.p) (Fin M.p) ℂ} (hC : Coupling h hhop M sg Sig W U)
    (hg : (I • (Sig - Sigᴴ)).IsHermitian) {eps : ℝ} (h0 : 0 ≤ eps) (hsep : ∀ k, 0 < hg.eigenvalues k → eps < hg.eigenvalues k) :
    (Finset.univ.filter fun k => eps < hg.eigenvalues k).card = M.p := by
  have hpos : (I • (Sig - Sigᴴ)).PosSemidef := by rw [hC.gamma]; exact posSemidef_self_mul_conjTranspose W
  have hev : ∀ k, eps < hg.eigenvalues k ↔ hg.eigenvalues k ≠ 0 := by
    intro k
    have h1 := hpos.eigenvalues_nonneg k
    constructor
    · intro h; linarith
    · intro h
      exact hsep k (lt_of_le_of_ne h1 (Ne.symm h))
  have h1 := hg.rank_eq_card_non_zero_eigs
  have h2 : (I • (Sig - Sigᴴ)).rank = M.p := by
    rw [hC.gamma, rank_self_mul_conjTranspose]
    refine le_antisymm ((rank_le_card_width W).trans (by simp)) ?_
    obtain ⟨Z, hZ⟩ := hC.onto
    have h3 : (1 : Matrix (Fin M.p) (Fin M.p) ℂ).rank ≤ (Wᴴ).rank := by
      have h4 : Wᴴ * (Z * Uᴴ) = 1 := by rw [← Matrix.mul_assoc, hZ]; exact mul_eq_one_comm.mp hC.unit
      rw [← h4]
      exact rank_mul_le_left _ _
    rw [rank_one, rank_conjTranspose] at h3
    simpa using h3
  rw [h2] at h1
  rw [h1, Fintype.card_subtype]
  congr 1
  ext k
  simp only [Finset.mem_filter, Finset.mem_univ, true_and, hev]

end
end Kwant.Scatt
