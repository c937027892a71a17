import Verif.Leads.ModesThm

/-!
C115: kwant/physics/leads.py, `StabilizedModes.selfenergy` (l.180-200) and `selfenergy` (l.1163-1191): the self-energy is the effect of the outgoing waves in the lead
on its interface.
-/

set_option linter.unusedSectionVars false

namespace Kwant.Leads
open Matrix Complex Filter

variable {n m : ℕ}

/-! ### Specification -/

/-- `Ψ 0`, `Ψ 1`, ... are amplitudes in the cells of the lead that fulfil the Schrödinger equation (the energy is subtracted from `h`) in all these cells, with the
amplitudes `φ` on the orbitals of the interface to which the cell 0 is attached. -/
structure LeadSolution (h : Matrix (Fin n) (Fin n) ℂ) (hhop : Matrix (Fin n) (Fin m) ℂ) (φ : Fin m → ℂ) (Ψ : ℕ → Fin n → ℂ) : Prop where
  first : h *ᵥ Ψ 0 + (padHop hhop : Matrix (Fin n) (Fin n) ℂ)ᴴ *ᵥ Ψ 1 + hhop *ᵥ φ = 0
  bulk : ∀ j, h *ᵥ Ψ (j + 1) + (padHop hhop : Matrix (Fin n) (Fin n) ℂ)ᴴ *ᵥ Ψ (j + 2) + padHop hhop *ᵥ Ψ j = 0

/-- `ψ` is a Bloch wave with momentum `k` and the group velocity `w`: the velocity operator, projected on the Bloch waves of this momentum, has the eigenvalue `w`. -/
def DefiniteVelocity (h hop : Matrix (Fin n) (Fin n) ℂ) (k w : ℝ) (ψ : Fin n → ℂ) : Prop :=
  IsBloch h hop (cexp (-(I * k))) ψ ∧ ∀ φ, IsBloch h hop (cexp (-(I * k))) φ → star φ ⬝ᵥ (velK hop k *ᵥ ψ) = w * (star φ ⬝ᵥ ψ)

/-- The amplitudes are a sum of Bloch waves moving away from the scattering region, up to a part that decays. -/
def OutgoingWave (h hop : Matrix (Fin n) (Fin n) ℂ) (Ψ : ℕ → Fin n → ℂ) : Prop :=
  ∃ (N : ℕ) (k w : Fin N → ℝ) (ψ : Fin N → Fin n → ℂ), (∀ i, 0 < w i ∧ DefiniteVelocity h hop (k i) (w i) (ψ i)) ∧
    Tendsto (fun j : ℕ => Ψ j - ∑ i, cexp (I * k i * j) • ψ i) atTop (nhds 0)

/-- There is no state at the surface of the isolated lead at this energy. -/
def NoSurfaceState (h : Matrix (Fin n) (Fin n) ℂ) (hhop : Matrix (Fin n) (Fin m) ℂ) : Prop :=
  ∀ Ψ, LeadSolution h hhop 0 Ψ → Tendsto Ψ atTop (nhds 0) → ∀ j, Ψ j = 0

/-- What `Σ` has to do: for all amplitudes at the interface, there is exactly one outgoing wave in the lead, and `Σ` gives what hops from it to the interface. -/
def IsSelfenergy (h : Matrix (Fin n) (Fin n) ℂ) (hhop : Matrix (Fin n) (Fin m) ℂ) (Sig : Matrix (Fin m) (Fin m) ℂ) : Prop :=
  ∀ φ, ∃ Ψ, LeadSolution h hhop φ Ψ ∧ OutgoingWave h (padHop hhop) Ψ ∧ (∀ Ψ', LeadSolution h hhop φ Ψ' → OutgoingWave h (padHop hhop) Ψ' → Ψ' = Ψ) ∧
    Sig *ᵥ φ = hhopᴴ *ᵥ Ψ 0

/-! ### The outgoing modes -/

/-- The algebraic content of the outgoing modes, with the hopping `u vᴴ`. -/
structure OutModes (h : Matrix (Fin n) (Fin n) ℂ) {p q r : ℕ} (u v : Matrix (Fin n) (Fin r) ℂ) (X Y : Matrix (Fin r) (Fin p ⊕ Fin q) ℂ) (Φ : Matrix (Fin n) (Fin p ⊕ Fin q) ℂ)
    (lam : Fin p → ℂ) (E : Matrix (Fin q) (Fin q) ℂ) : Prop where
  eX : X * fromBlocks (diagonal lam) 0 0 E = vᴴ * Φ
  eY : Y = uᴴ * Φ
  eq : h * Φ + v * (Y * fromBlocks (diagonal lam) 0 0 E) + u * X = 0
  unit : ∀ i, ‖lam i‖ = 1
  decay : ∀ a b, Tendsto (fun t : ℕ => (E ^ t) a b) atTop (nhds 0)
  current : I • (Xᴴ * Y - Yᴴ * X) = diagonal (Sum.elim (fun _ => 1) fun _ => 0)
  indep : ∀ c, X.toCols₂ *ᵥ c = 0 → Y.toCols₂ *ᵥ c = 0 → c = 0

theorem out_modes {h hop : Matrix (Fin n) (Fin n) ℂ} {p q r : ℕ} {wf : Matrix (Fin n) (Fin p ⊕ Fin p) ℂ} {mom vel : Fin p ⊕ Fin p → ℝ}
    {X Y : Matrix (Fin r) ((Fin p ⊕ Fin p) ⊕ Fin q) ℂ} {v : Matrix (Fin n) (Fin r) ℂ} {s : Fin p ⊕ Fin p → ℂ} (hs : LeadSpec h hop wf mom vel X Y v s)
    (hd : ∀ i, 0 < vel (.inr i)) : ∃ (u : Matrix (Fin n) (Fin r) ℂ) (Φ : Matrix (Fin n) (Fin q) ℂ) (E : Matrix (Fin q) (Fin q) ℂ), hop = u * vᴴ ∧
      OutModes h u v (X.submatrix id outCols) (Y.submatrix id outCols)
        (fromCols (of fun x i => s (.inr i) * (cexp (-(I * mom (.inr i))))⁻¹ * wf x (.inr i)) Φ) (fun i => (cexp (-(I * mom (.inr i))))⁻¹) E := by
  obtain ⟨u, hf, hu, hp, Φ, E, hE, e1, e2, e3⟩ := hs.solves
  refine ⟨u, Φ, E, hf, ?_⟩
  have hXo : X.submatrix id outCols = fromCols (X.submatrix id (Sum.inl ∘ Sum.inr)) X.toCols₂ := by
    ext a b
    rcases b with b | b <;> rfl
  have hYo : Y.submatrix id outCols = fromCols (Y.submatrix id (Sum.inl ∘ Sum.inr)) Y.toCols₂ := by
    ext a b
    rcases b with b | b <;> rfl
  have hne : ∀ i, cexp (-(I * mom (.inr i))) ≠ 0 := fun i => Complex.exp_ne_zero _
  have hYp : Y.submatrix id (Sum.inl ∘ Sum.inr) = uᴴ * (of fun x i => s (.inr i) * (cexp (-(I * mom (.inr i))))⁻¹ * wf x (.inr i)) := by
    ext a i
    have h1 := congrFun (hp (.inr i)).2 a
    rw [Pi.smul_apply, Pi.smul_apply, smul_eq_mul, smul_eq_mul] at h1
    have h2 : Y a (.inl (.inr i)) = (cexp (-(I * mom (.inr i))))⁻¹ * (s (.inr i) * (uᴴ *ᵥ wf.col (.inr i)) a) := by
      rw [← h1, inv_mul_cancel_left₀ (hne i)]
      rfl
    change Y a (.inl (.inr i)) = _
    rw [h2, mulVec, dotProduct, mul_apply, Finset.mul_sum, Finset.mul_sum]
    refine Finset.sum_congr rfl fun x _ => ?_
    rw [of_apply]
    change _ * (_ * (_ * wf x (.inr i))) = _
    ring
  have hXp : X.submatrix id (Sum.inl ∘ Sum.inr) * diagonal (fun i => (cexp (-(I * mom (.inr i))))⁻¹) =
      vᴴ * (of fun x i => s (.inr i) * (cexp (-(I * mom (.inr i))))⁻¹ * wf x (.inr i)) := by
    ext a i
    have h1 := congrFun (hp (.inr i)).1 a
    rw [Pi.smul_apply, smul_eq_mul] at h1
    rw [mul_diagonal]
    change X a (.inl (.inr i)) * _ = _
    have h2 : X a (.inl (.inr i)) = s (.inr i) * (vᴴ *ᵥ wf.col (.inr i)) a := h1
    rw [h2, mulVec, dotProduct, mul_apply, Finset.mul_sum, Finset.sum_mul]
    refine Finset.sum_congr rfl fun x _ => ?_
    rw [of_apply]
    change _ * (_ * wf x (.inr i)) * _ = _
    ring
  refine ⟨?_, ?_, ?_, ?_, hE, ?_, ?_⟩
  · rw [hXo, fromCols_mul_fromBlocks, mul_fromCols, Matrix.mul_zero, Matrix.mul_zero, add_zero, zero_add, hXp, e1]
  · rw [hYo, mul_fromCols, hYp, e2]
  · have hcol : h * (of fun x i => s (.inr i) * (cexp (-(I * mom (.inr i))))⁻¹ * wf x (.inr i)) + v * (Y.submatrix id (Sum.inl ∘ Sum.inr) *
        diagonal (fun i => (cexp (-(I * mom (.inr i))))⁻¹)) + u * X.submatrix id (Sum.inl ∘ Sum.inr) = 0 := by
      have hXp' : X.submatrix id (Sum.inl ∘ Sum.inr) = vᴴ * (of fun x i => s (.inr i) * wf x (.inr i)) := by
        ext a i
        have h1 := congrFun (hp (.inr i)).1 a
        rw [Pi.smul_apply, smul_eq_mul] at h1
        have h2 : X a (.inl (.inr i)) = s (.inr i) * (vᴴ *ᵥ wf.col (.inr i)) a := h1
        change X a (.inl (.inr i)) = _
        rw [h2, mulVec, dotProduct, mul_apply, Finset.mul_sum]
        refine Finset.sum_congr rfl fun x _ => ?_
        rw [of_apply]
        change _ * (_ * wf x (.inr i)) = _
        ring
      rw [hYp, hXp', ← Matrix.mul_assoc u, ← hf, Matrix.mul_assoc, ← Matrix.mul_assoc v]
      have hvu : v * uᴴ = hopᴴ := by rw [hf, conjTranspose_mul, conjTranspose_conjTranspose]
      rw [hvu]
      ext a i
      have hb := hs.bloch (.inr i)
      rw [isBloch_iff _ _ (hne i)] at hb
      have hb := congrArg (fun z => s (.inr i) * (cexp (-(I * mom (.inr i))))⁻¹ * z) (congrFun hb a)
      simp only [Pi.add_apply, Pi.smul_apply, smul_eq_mul, Pi.zero_apply, mul_zero, mulVec, dotProduct, mul_add] at hb
      rw [Matrix.add_apply, Matrix.add_apply, mul_apply, mul_apply, mul_apply, Matrix.zero_apply, ← hb]
      simp only [mul_diagonal, of_apply, Finset.mul_sum]
      rw [add_right_comm]
      have hne' := hne i
      generalize cexp (-(I * mom (.inr i))) = μ at *
      congr 1
      · congr 1
        · refine Finset.sum_congr rfl fun x _ => ?_
          change _ = _ * (_ * wf x (.inr i))
          ring
        · refine Finset.sum_congr rfl fun x _ => ?_
          change _ = _ * (_ * (_ * wf x (.inr i)))
          field_simp
      · refine Finset.sum_congr rfl fun x _ => ?_
        change _ = _ * (_ * (_ * wf x (.inr i)))
        ring
    rw [hXo, hYo, mul_fromCols, fromCols_mul_fromBlocks, mul_fromCols, mul_fromCols, Matrix.mul_zero, Matrix.mul_zero, add_zero, zero_add]
    ext a b
    rcases b with b | b
    · exact congrFun (congrFun hcol a) b
    · exact congrFun (congrFun e3 a) b
  · intro i
    rw [norm_inv, norm_cexp_mom, inv_one]
  · have h1 : (X.submatrix id (outCols : Fin p ⊕ Fin q → _))ᴴ * Y.submatrix id outCols = (Xᴴ * Y).submatrix outCols outCols := rfl
    have h2 : (Y.submatrix id (outCols : Fin p ⊕ Fin q → _))ᴴ * X.submatrix id outCols = (Yᴴ * X).submatrix outCols outCols := rfl
    rw [h1, h2]
    have h3 := congrArg (fun M => M.submatrix outCols outCols) hs.current
    ext a b
    have h4 := congrFun (congrFun h3 a) b
    simp only [submatrix_apply, Matrix.smul_apply, Matrix.sub_apply] at h4 ⊢
    rw [h4, diagonal_apply, diagonal_apply]
    have hinj : outCols a = outCols b ↔ a = b := by
      rcases a with a | a <;> rcases b with b | b <;> simp [outCols]
    rw [if_congr hinj rfl rfl]
    by_cases hab : a = b
    · rw [if_pos hab, if_pos hab]
      rcases a with a | a
      · change ((vel (.inr a) / |vel (.inr a)| : ℝ) : ℂ) = 1
        rw [abs_of_pos (hd a), div_self (hd a).ne', ofReal_one]
      · rfl
    · rw [if_neg hab, if_neg hab]
  · intro c h1 h2
    exact hs.indep c h1 h2

section
variable {h : Matrix (Fin n) (Fin n) ℂ} {hhop : Matrix (Fin n) (Fin m) ℂ} {p q r : ℕ} {u v : Matrix (Fin n) (Fin r) ℂ} {vm : Matrix (Fin m) (Fin r) ℂ}
  {X Y : Matrix (Fin r) (Fin p ⊕ Fin q) ℂ} {Φ : Matrix (Fin n) (Fin p ⊕ Fin q) ℂ} {lam : Fin p → ℂ} {E : Matrix (Fin q) (Fin q) ℂ}

/-- The wave with the amplitudes `c` of the outgoing modes. -/
noncomputable def outWave (Φ : Matrix (Fin n) (Fin p ⊕ Fin q) ℂ) (lam : Fin p → ℂ) (E : Matrix (Fin q) (Fin q) ℂ) (c : Fin p ⊕ Fin q → ℂ) (j : ℕ) : Fin n → ℂ :=
  Φ *ᵥ ((fromBlocks (diagonal lam) 0 0 E) ^ j *ᵥ c)

theorem outWave_solution (ho : OutModes h u v X Y Φ lam E) (hf : padHop hhop = u * vᴴ) (hm : hhop = u * vmᴴ) {c : Fin p ⊕ Fin q → ℂ} {φ : Fin m → ℂ}
    (hc : X *ᵥ c = vmᴴ *ᵥ φ) : LeadSolution h hhop φ (outWave Φ lam E c) := by
  have hH : (padHop hhop : Matrix (Fin n) (Fin n) ℂ)ᴴ = v * uᴴ := by rw [hf, conjTranspose_mul, conjTranspose_conjTranspose]
  constructor
  · rw [hH]
    simp only [outWave, pow_zero, one_mulVec, pow_one]
    have h1 : hhop *ᵥ φ = (u * X) *ᵥ c := by rw [hm, ← mulVec_mulVec, ← hc, mulVec_mulVec]
    rw [h1]
    have h2 := congrArg (· *ᵥ c) ho.eq
    simp only [add_mulVec, zero_mulVec] at h2
    rw [← h2, ho.eY]
    simp only [mulVec_mulVec, Matrix.mul_assoc]
  · intro j
    rw [hH, hf]
    simp only [outWave]
    have h2 := congrArg (· *ᵥ (fromBlocks (diagonal lam) 0 0 E ^ (j + 1) *ᵥ c)) ho.eq
    simp only [add_mulVec, zero_mulVec] at h2
    rw [← h2]
    congr 1
    · congr 1
      · simp only [mulVec_mulVec, Matrix.mul_assoc]
      · rw [ho.eY]
        simp only [mulVec_mulVec, Matrix.mul_assoc, ← pow_succ']
    · have h3 := ho.eX
      rw [mulVec_mulVec, Matrix.mul_assoc u, ← h3]
      simp only [mulVec_mulVec, Matrix.mul_assoc, ← pow_succ']

theorem outWave_split (c : Fin p ⊕ Fin q → ℂ) (j : ℕ) :
    outWave Φ lam E c j = (∑ i, (lam i) ^ j • (c (.inl i) • Φ.col (.inl i))) + Φ.toCols₂ *ᵥ (E ^ j *ᵥ (c ∘ Sum.inr)) := by
  rw [outWave, fromBlocks_diagonal_pow, diagonal_pow]
  ext x
  rw [mulVec, dotProduct, Fintype.sum_sum_type, Pi.add_apply, Finset.sum_apply]
  congr 1
  · refine Finset.sum_congr rfl fun i _ => ?_
    rw [fromBlocks_mulVec]
    simp only [Sum.elim_inl, mulVec_diagonal, zero_mulVec, add_zero, Pi.smul_apply, smul_eq_mul, col_apply, Pi.pow_apply, Function.comp_apply]
    ring
  · rw [fromBlocks_mulVec]
    simp only [Sum.elim_inr, zero_mulVec, zero_add]
    rfl

theorem decay_vec (hE : ∀ a b, Tendsto (fun t : ℕ => (E ^ t) a b) atTop (nhds 0)) (A : Matrix (Fin n) (Fin q) ℂ) (c : Fin q → ℂ) :
    Tendsto (fun j : ℕ => A *ᵥ (E ^ j *ᵥ c)) atTop (nhds 0) := by
  rw [tendsto_pi_nhds]
  intro x
  have h1 : ∀ b, Tendsto (fun j : ℕ => (E ^ j *ᵥ c) b) atTop (nhds 0) := by
    intro b
    have : Tendsto (fun j : ℕ => ∑ a, (E ^ j) b a * c a) atTop (nhds (∑ a : Fin q, 0 * c a)) := tendsto_finsetSum _ fun a _ => (hE b a).mul_const _
    simp only [zero_mul, Finset.sum_const_zero] at this
    exact this
  have : Tendsto (fun j : ℕ => ∑ b, A x b * (E ^ j *ᵥ c) b) atTop (nhds (∑ b : Fin q, A x b * 0)) := tendsto_finsetSum _ fun a _ => (h1 a).const_mul _
  simp only [mul_zero, Finset.sum_const_zero] at this
  exact this

end

/-! ### Conservation of the current -/

/-- The current from cell `j` to cell `j + 1`. -/
noncomputable def flux (hop : Matrix (Fin n) (Fin n) ℂ) (Ψ : ℕ → Fin n → ℂ) (j : ℕ) : ℂ :=
  I * (star (Ψ j) ⬝ᵥ (hopᴴ *ᵥ Ψ (j + 1)) - star (Ψ (j + 1)) ⬝ᵥ (hop *ᵥ Ψ j))

theorem star_form (M : Matrix (Fin n) (Fin n) ℂ) (a b : Fin n → ℂ) : star (star a ⬝ᵥ (M *ᵥ b)) = star b ⬝ᵥ (Mᴴ *ᵥ a) := by
  rw [← star_dotProduct, star_mulVec, ← dotProduct_mulVec]

theorem flux_bulk {h hop : Matrix (Fin n) (Fin n) ℂ} (hh : h.IsHermitian) {Ψ : ℕ → Fin n → ℂ} {j : ℕ} (hb : h *ᵥ Ψ (j + 1) + hopᴴ *ᵥ Ψ (j + 2) + hop *ᵥ Ψ j = 0) :
    flux hop Ψ (j + 1) = flux hop Ψ j := by
  have h1 := congrArg (star (Ψ (j + 1)) ⬝ᵥ ·) hb
  simp only [dotProduct_add, dotProduct_zero] at h1
  have h2 := congrArg star h1
  simp only [star_add, star_form, hh.eq, conjTranspose_conjTranspose, star_zero] at h2
  rw [flux, flux]
  linear_combination I * h1 - I * h2

theorem flux_first {h hop : Matrix (Fin n) (Fin n) ℂ} (hh : h.IsHermitian) {Ψ : ℕ → Fin n → ℂ} (hb : h *ᵥ Ψ 0 + hopᴴ *ᵥ Ψ 1 = 0) : flux hop Ψ 0 = 0 := by
  have h1 := congrArg (star (Ψ 0) ⬝ᵥ ·) hb
  simp only [dotProduct_add, dotProduct_zero] at h1
  have h2 := congrArg star h1
  simp only [star_add, star_form, hh.eq, conjTranspose_conjTranspose, star_zero] at h2
  rw [flux]
  linear_combination I * h1 - I * h2

/-- No current flows in the isolated lead. -/
theorem flux_zero {h : Matrix (Fin n) (Fin n) ℂ} {hhop : Matrix (Fin n) (Fin m) ℂ} (hh : h.IsHermitian) {Ψ : ℕ → Fin n → ℂ} (hs : LeadSolution h hhop 0 Ψ) (j : ℕ) :
    flux (padHop hhop) Ψ j = 0 := by
  induction j with
  | zero =>
    have := hs.first
    rw [mulVec_zero, add_zero] at this
    exact flux_first hh this
  | succ j ih => rw [flux_bulk hh (hs.bulk j), ih]

theorem flux_outWave {h : Matrix (Fin n) (Fin n) ℂ} {p q r : ℕ} {u v : Matrix (Fin n) (Fin r) ℂ} {X Y : Matrix (Fin r) (Fin p ⊕ Fin q) ℂ}
    {Φ : Matrix (Fin n) (Fin p ⊕ Fin q) ℂ} {lam : Fin p → ℂ} {E : Matrix (Fin q) (Fin q) ℂ} (ho : OutModes h u v X Y Φ lam E) (c : Fin p ⊕ Fin q → ℂ) (j : ℕ) :
    flux (u * vᴴ) (outWave Φ lam E c) j = ((∑ i, ‖c (.inl i)‖ ^ 2 : ℝ) : ℂ) := by
  have hv : ∀ j, vᴴ *ᵥ outWave Φ lam E c j = X *ᵥ (fromBlocks (diagonal lam) 0 0 E ^ (j + 1) *ᵥ c) := by
    intro j
    rw [outWave, mulVec_mulVec, ← ho.eX, mulVec_mulVec, mulVec_mulVec, Matrix.mul_assoc, ← pow_succ']
  have hu : ∀ j, uᴴ *ᵥ outWave Φ lam E c j = Y *ᵥ (fromBlocks (diagonal lam) 0 0 E ^ j *ᵥ c) := by
    intro j
    rw [outWave, ho.eY, mulVec_mulVec]
  have key : flux (u * vᴴ) (outWave Φ lam E c) j = star (fromBlocks (diagonal lam) 0 0 E ^ (j + 1) *ᵥ c) ⬝ᵥ ((I • (Xᴴ * Y - Yᴴ * X)) *ᵥ (fromBlocks (diagonal lam) 0 0 E ^ (j + 1) *ᵥ c)) := by
    rw [flux, conjTranspose_mul, conjTranspose_conjTranspose, ← mulVec_mulVec, ← mulVec_mulVec, hv, hu, dotProduct_mulVec, dotProduct_mulVec (star (outWave Φ lam E c (j + 1)))]
    have e1 : star (outWave Φ lam E c j) ᵥ* v = star (vᴴ *ᵥ outWave Φ lam E c j) := by rw [star_mulVec, conjTranspose_conjTranspose]
    have e2 : star (outWave Φ lam E c (j + 1)) ᵥ* u = star (uᴴ *ᵥ outWave Φ lam E c (j + 1)) := by rw [star_mulVec, conjTranspose_conjTranspose]
    rw [e1, e2, hv, hu]
    generalize fromBlocks (diagonal lam) 0 0 E ^ (j + 1) *ᵥ c = d
    rw [smul_mulVec, dotProduct_smul, sub_mulVec, dotProduct_sub, star_mulVec, star_mulVec, ← dotProduct_mulVec, ← dotProduct_mulVec, mulVec_mulVec, mulVec_mulVec, smul_eq_mul]
  rw [key, ho.current, fromBlocks_diagonal_pow, diagonal_pow, fromBlocks_mulVec, dotProduct, Fintype.sum_sum_type, ofReal_sum]
  have h0 : ∀ i : Fin p, ‖lam i ^ (j + 1)‖ = 1 := fun i => by rw [norm_pow, ho.unit, one_pow]
  simp only [mulVec_diagonal, Sum.elim_inl, Sum.elim_inr, zero_mul, mul_zero, Finset.sum_const_zero, add_zero, one_mul, zero_mulVec, Pi.star_apply, Pi.pow_apply, Function.comp_apply]
  refine Finset.sum_congr rfl fun i _ => ?_
  rw [← Complex.normSq_eq_norm_sq, star_def, ← Complex.normSq_eq_conj_mul_self, Complex.normSq_mul, Complex.normSq_eq_norm_sq (_ ^ _), h0]
  simp

/-! ### Uniqueness -/

theorem form_tendsto {ι : Type} [Fintype ι] {a b : ℕ → ι → ℂ} (ha : ∀ x, Tendsto (fun j => a j x) atTop (nhds 0)) (hb : ∀ x, IsBoundedUnder (· ≤ ·) atTop (fun j => ‖b j x‖)) :
    Tendsto (fun j => a j ⬝ᵥ b j) atTop (nhds 0) := by
  have : Tendsto (fun j => ∑ x, a j x * b j x) atTop (nhds (∑ _x : ι, 0)) :=
    tendsto_finsetSum _ fun x _ => (ha x).zero_mul_isBoundedUnder_le (hb x)
  simpa [dotProduct] using this

theorem bounded_mulVec {ι κ : Type} [Fintype ι] (M : Matrix κ ι ℂ) {b : ℕ → ι → ℂ} (hb : ∀ x, ∃ B, ∀ j, ‖b j x‖ ≤ B) (y : κ) : ∃ B, ∀ j, ‖(M *ᵥ b j) y‖ ≤ B := by
  choose B hB using hb
  refine ⟨∑ x, ‖M y x‖ * B x, fun j => ?_⟩
  rw [mulVec, dotProduct]
  refine (norm_sum_le _ _).trans (Finset.sum_le_sum fun x _ => ?_)
  rw [norm_mul]
  exact mul_le_mul_of_nonneg_left (hB x j) (norm_nonneg _)

theorem tendsto_mulVec {ι κ : Type} [Fintype ι] (M : Matrix κ ι ℂ) {b : ℕ → ι → ℂ} (hb : ∀ x, Tendsto (fun j => b j x) atTop (nhds 0)) (y : κ) :
    Tendsto (fun j => (M *ᵥ b j) y) atTop (nhds 0) := by
  have : Tendsto (fun j : ℕ => ∑ x, M y x * b j x) atTop (nhds (∑ x, M y x * 0)) := tendsto_finsetSum _ fun a _ => (hb a).const_mul _
  simp only [mul_zero, Finset.sum_const_zero] at this
  exact this

/-- The current of a wave tends to that of its part that does not decay. -/
theorem flux_tendsto (hop : Matrix (Fin n) (Fin n) ℂ) {Ψ Ψ' : ℕ → Fin n → ℂ} (hd : Tendsto (fun j => Ψ j - Ψ' j) atTop (nhds 0)) (hb : ∀ x, ∃ B, ∀ j, ‖Ψ' j x‖ ≤ B) :
    Tendsto (fun j => flux hop Ψ j - flux hop Ψ' j) atTop (nhds 0) := by
  rw [tendsto_pi_nhds] at hd
  have hd1 : ∀ x, Tendsto (fun j => Ψ (j + 1) x - Ψ' (j + 1) x) atTop (nhds 0) := fun x => (tendsto_add_atTop_iff_nat 1).mpr (hd x)
  have key : ∀ (A : Matrix (Fin n) (Fin n) ℂ) (Ψa Ψa' Ψb Ψb' : ℕ → Fin n → ℂ), (∀ x, Tendsto (fun j => Ψa j x - Ψa' j x) atTop (nhds 0)) →
      (∀ x, Tendsto (fun j => Ψb j x - Ψb' j x) atTop (nhds 0)) → (∀ x, ∃ B, ∀ j, ‖Ψa' j x‖ ≤ B) → (∀ x, ∃ B, ∀ j, ‖Ψb' j x‖ ≤ B) →
      Tendsto (fun j => star (Ψa j) ⬝ᵥ (A *ᵥ Ψb j) - star (Ψa' j) ⬝ᵥ (A *ᵥ Ψb' j)) atTop (nhds 0) := by
    intro A Ψa Ψa' Ψb Ψb' ta tb ba bb
    have sa : ∀ x, Tendsto (fun j => (star (Ψa j - Ψa' j)) x) atTop (nhds 0) := by
      intro x
      have := (continuous_star.tendsto (0 : ℂ)).comp (ta x)
      rw [star_zero] at this
      exact this
    have t1 : Tendsto (fun j => star (Ψa j - Ψa' j) ⬝ᵥ (A *ᵥ (Ψb j - Ψb' j))) atTop (nhds 0) :=
      form_tendsto sa fun x => ((tendsto_mulVec A (b := fun j => Ψb j - Ψb' j) tb x).norm).isBoundedUnder_le
    have t2 : Tendsto (fun j => star (Ψa j - Ψa' j) ⬝ᵥ (A *ᵥ Ψb' j)) atTop (nhds 0) := by
      refine form_tendsto sa fun x => ?_
      obtain ⟨B, hB⟩ := bounded_mulVec A bb x
      exact isBoundedUnder_of ⟨B, hB⟩
    have t3 : Tendsto (fun j => (A *ᵥ (Ψb j - Ψb' j)) ⬝ᵥ star (Ψa' j)) atTop (nhds 0) := by
      refine form_tendsto (tendsto_mulVec A (b := fun j => Ψb j - Ψb' j) tb) fun x => ?_
      obtain ⟨B, hB⟩ := ba x
      exact isBoundedUnder_of ⟨B, fun j => by rw [Pi.star_apply, norm_star]; exact hB j⟩
    have t4 := (t1.add t2).add t3
    rw [add_zero, add_zero] at t4
    refine t4.congr fun j => ?_
    rw [dotProduct_comm _ (star (Ψa' j)), mulVec_sub, star_sub]
    simp only [sub_dotProduct, dotProduct_sub]
    ring
  have k1 := key hopᴴ Ψ Ψ' (fun j => Ψ (j + 1)) (fun j => Ψ' (j + 1)) hd hd1 hb fun x => ⟨_, fun j => (hb x).choose_spec (j + 1)⟩
  have k2 := key hop (fun j => Ψ (j + 1)) (fun j => Ψ' (j + 1)) Ψ Ψ' hd1 hd (fun x => ⟨_, fun j => (hb x).choose_spec (j + 1)⟩) hb
  have k3 := (k1.sub k2).const_mul I
  rw [sub_zero, mul_zero] at k3
  refine k3.congr fun j => ?_
  rw [flux, flux]
  ring

/-- The outgoing Bloch waves are combinations of the outgoing modes. -/
theorem outgoing_modes {h hop : Matrix (Fin n) (Fin n) ℂ} {p q r : ℕ} {wf : Matrix (Fin n) (Fin p ⊕ Fin p) ℂ} {mom vel : Fin p ⊕ Fin p → ℝ}
    {X Y : Matrix (Fin r) ((Fin p ⊕ Fin p) ⊕ Fin q) ℂ} {v : Matrix (Fin n) (Fin r) ℂ} {s : Fin p ⊕ Fin p → ℂ} (hs : LeadSpec h hop wf mom vel X Y v s)
    (hd : ∀ i, vel (.inl i) < 0) {k w : ℝ} {ψ : Fin n → ℂ} (hw : 0 < w) (hψ : DefiniteVelocity h hop k w ψ) :
    ∃ C : Fin p → ℂ, ∀ j : ℕ, cexp (I * k * j) • ψ = ∑ l, (cexp (-(I * mom (.inr l))))⁻¹ ^ j • (C l • wf.col (.inr l)) := by
  obtain ⟨hb, hv⟩ := hψ
  obtain ⟨c, hc, hψ⟩ := hs.complete k ψ hb
  have hexp : ∀ j : ℕ, cexp (I * k * j) = (cexp (-(I * k)))⁻¹ ^ j := by
    intro j
    rw [← Complex.exp_neg, neg_neg, ← Complex.exp_nat_mul, mul_comm]
  have hsum : ∀ (A : (Fin n → ℂ) →ₗ[ℂ] ℂ), A ψ = ∑ l, c l * A (wf.col l) := by
    intro A
    have : ψ = ∑ l, c l • wf.col l := by
      rw [hψ]
      ext x
      simp [mulVec, dotProduct, mul_comm]
    rw [this, map_sum]
    simp
  have hzero : ∀ l, c l ≠ 0 → vel l = w := by
    intro l hl
    have hph : cexp (-(I * mom l)) = cexp (-(I * k)) := by
      by_contra hne
      exact hl (hc l hne)
    have hbl := hs.bloch l
    rw [hph] at hbl
    have h1 := hv _ hbl
    have hterm : ∀ (f : (Fin p ⊕ Fin p) → ℂ) (z : ℂ), (∀ l', cexp (-(I * mom l')) = cexp (-(I * k)) → f l' = if l = l' then z else 0) → ∑ l', c l' * f l' = c l * z := by
      intro f z hf
      rw [Finset.sum_eq_single l]
      · rw [hf l hph, if_pos rfl]
      · intro l' _ hll
        by_cases hp' : cexp (-(I * mom l')) = cexp (-(I * k))
        · rw [hf l' hp', if_neg (Ne.symm hll), mul_zero]
        · rw [hc l' hp', zero_mul]
      · intro h0; exact absurd (Finset.mem_univ _) h0
    have e1 : star (wf.col l) ⬝ᵥ ψ = c l * ((1 / |vel l| : ℝ) : ℂ) := by
      have := hsum (dotProductBilin ℂ ℂ (star (wf.col l)))
      simp only [dotProductBilin_apply_apply] at this
      rw [this]
      exact hterm _ _ fun l' hl' => hs.orthogonal l l' (hph.trans hl'.symm)
    have e2 : star (wf.col l) ⬝ᵥ (velK hop k *ᵥ ψ) = c l * ((vel l / |vel l| : ℝ) : ℂ) := by
      have hvk : velK hop k = velK hop (mom l) := by rw [velK_eq, velK_eq, hph]
      have := hsum ((dotProductBilin ℂ ℂ (star (wf.col l))).comp (velK hop k).mulVecLin)
      simp only [LinearMap.comp_apply, mulVecLin_apply, dotProductBilin_apply_apply] at this
      rw [this]
      refine hterm _ _ fun l' hl' => ?_
      rw [hvk]
      exact hs.velocity l l' (hph.trans hl'.symm)
    rw [e1, e2] at h1
    have h0 : |vel l| ≠ 0 := abs_ne_zero.mpr (hs.nonzero l)
    have h2 : c l * (((vel l - w) / |vel l| : ℝ) : ℂ) = 0 := by
      have : (((vel l - w) / |vel l| : ℝ) : ℂ) = ((vel l / |vel l| : ℝ) : ℂ) - w * ((1 / |vel l| : ℝ) : ℂ) := by
        push_cast
        ring
      rw [this]
      linear_combination h1
    have h3 := (mul_eq_zero.mp h2).resolve_left hl
    rw [ofReal_eq_zero, div_eq_zero_iff] at h3
    exact sub_eq_zero.mp (h3.resolve_right h0)
  refine ⟨fun l => c (.inr l), fun j => ?_⟩
  rw [hexp, hψ]
  ext x
  rw [Pi.smul_apply, mulVec, dotProduct, Fintype.sum_sum_type, Finset.sum_eq_zero (s := Finset.univ) (f := fun l => wf x (Sum.inl l) * c (Sum.inl l)), zero_add, Finset.sum_apply, smul_eq_mul,
    Finset.mul_sum]
  · refine Finset.sum_congr rfl fun l _ => ?_
    simp only [Pi.smul_apply, smul_eq_mul, col_apply]
    by_cases hcl : c (.inr l) = 0
    · rw [hcl]; ring
    · have hph : cexp (-(I * mom (.inr l))) = cexp (-(I * k)) := by
        by_contra hne
        exact hcl (hc _ hne)
      rw [hph]
      ring
  · intro l _
    by_cases hcl : c (.inl l) = 0
    · rw [hcl, mul_zero]
    · have h1 := hzero _ hcl
      have h2 := hd l
      rw [h1] at h2
      exact absurd hw (not_lt.mpr h2.le)

section
variable {h : Matrix (Fin n) (Fin n) ℂ} {hhop : Matrix (Fin n) (Fin m) ℂ} {p q r : ℕ} {wf : Matrix (Fin n) (Fin p ⊕ Fin p) ℂ} {mom vel : Fin p ⊕ Fin p → ℝ}
  {X Y : Matrix (Fin r) ((Fin p ⊕ Fin p) ⊕ Fin q) ℂ} {v : Matrix (Fin n) (Fin r) ℂ} {s : Fin p ⊕ Fin p → ℂ} {Φ : Matrix (Fin n) (Fin q) ℂ} {E : Matrix (Fin q) (Fin q) ℂ}

/-- The wave functions of the outgoing modes. -/
noncomputable def outPhi (wf : Matrix (Fin n) (Fin p ⊕ Fin p) ℂ) (mom : Fin p ⊕ Fin p → ℝ) (s : Fin p ⊕ Fin p → ℂ) (Φ : Matrix (Fin n) (Fin q) ℂ) : Matrix (Fin n) (Fin p ⊕ Fin q) ℂ :=
  fromCols (of fun x i => s (.inr i) * (cexp (-(I * mom (.inr i))))⁻¹ * wf x (.inr i)) Φ

/-- Every outgoing wave is a combination of outgoing modes, up to a part that decays. -/
theorem outgoing_form {hop : Matrix (Fin n) (Fin n) ℂ} (hs : LeadSpec h hop wf mom vel X Y v s) (hd : ∀ i, vel (.inl i) < 0) {Ψ : ℕ → Fin n → ℂ} (hΨ : OutgoingWave h hop Ψ) :
    ∃ c : Fin p → ℂ, Tendsto (fun j : ℕ => Ψ j - outWave (outPhi wf mom s Φ) (fun i => (cexp (-(I * mom (.inr i))))⁻¹) E (Sum.elim c 0) j) atTop (nhds 0) := by
  obtain ⟨N, k, w, ψ, h1, h2⟩ := hΨ
  have h3 : ∀ i, ∃ C : Fin p → ℂ, ∀ j : ℕ, cexp (I * k i * j) • ψ i = ∑ l, (cexp (-(I * mom (.inr l))))⁻¹ ^ j • (C l • wf.col (.inr l)) :=
    fun i => outgoing_modes hs hd (h1 i).1 (h1 i).2
  choose C hC using h3
  refine ⟨fun l => (∑ i, C i l) * (s (.inr l))⁻¹ * cexp (-(I * mom (.inr l))), h2.congr fun j => ?_⟩
  congr 1
  rw [outWave_split]
  simp only [hC]
  rw [Finset.sum_comm]
  have h0 : (Sum.elim (fun l => (∑ i, C i l) * (s (.inr l))⁻¹ * cexp (-(I * mom (.inr l)))) 0 ∘ Sum.inr : Fin q → ℂ) = 0 := rfl
  rw [h0, mulVec_zero, mulVec_zero, add_zero]
  refine Finset.sum_congr rfl fun l _ => ?_
  rw [← Finset.smul_sum, ← Finset.sum_smul]
  congr 1
  have hsl : s (.inr l) ≠ 0 := by
    rcases hs.sign (.inr l) with h | h <;> rw [h] <;> norm_num
  have hne : cexp (-(I * mom (.inr l))) ≠ 0 := Complex.exp_ne_zero _
  ext x
  simp only [Pi.smul_apply, smul_eq_mul, col_apply, Sum.elim_inl, outPhi, fromCols_apply_inl, of_apply]
  generalize cexp (-(I * mom (.inr l))) = μ at *
  field_simp

theorem outWave_sub (A : Matrix (Fin n) (Fin p ⊕ Fin q) ℂ) (lam : Fin p → ℂ) (c c' : Fin p ⊕ Fin q → ℂ) (j : ℕ) :
    outWave A lam E (c - c') j = outWave A lam E c j - outWave A lam E c' j := by
  rw [outWave, outWave, outWave, mulVec_sub, mulVec_sub]

theorem outWave_bounded (A : Matrix (Fin n) (Fin p ⊕ Fin q) ℂ) {lam : Fin p → ℂ} (hl : ∀ i, ‖lam i‖ = 1) (c : Fin p → ℂ) (x : Fin n) :
    ∃ B, ∀ j, ‖outWave A lam E (Sum.elim c 0) j x‖ ≤ B := by
  refine ⟨∑ i, ‖c i‖ * ‖A x (.inl i)‖, fun j => ?_⟩
  rw [outWave_split]
  have h0 : (Sum.elim c 0 ∘ Sum.inr : Fin q → ℂ) = 0 := rfl
  rw [h0, mulVec_zero, mulVec_zero, add_zero, Finset.sum_apply]
  refine (norm_sum_le _ _).trans (Finset.sum_le_sum fun i _ => ?_)
  simp only [Pi.smul_apply, smul_eq_mul, col_apply, Sum.elim_inl, norm_mul, norm_pow, hl, one_pow, one_mul]
  exact le_rfl

/-- The outgoing wave is unique. -/
theorem outgoing_unique (hh : h.IsHermitian) (hs : LeadSpec h (padHop hhop) wf mom vel X Y v s) (hd : ∀ i, vel (.inl i) < 0) (hd' : ∀ i, 0 < vel (.inr i))
    (hn : NoSurfaceState h hhop) {φ : Fin m → ℂ} {Ψ Ψ' : ℕ → Fin n → ℂ} (h1 : LeadSolution h hhop φ Ψ) (h2 : OutgoingWave h (padHop hhop) Ψ)
    (h1' : LeadSolution h hhop φ Ψ') (h2' : OutgoingWave h (padHop hhop) Ψ') : Ψ' = Ψ := by
  obtain ⟨u, Φ, E, hf, ho⟩ := out_modes hs hd'
  obtain ⟨c, hc⟩ := outgoing_form (Φ := Φ) (E := E) hs hd h2
  obtain ⟨c', hc'⟩ := outgoing_form (Φ := Φ) (E := E) hs hd h2'
  have hsub : LeadSolution h hhop 0 (fun j => Ψ' j - Ψ j) := by
    constructor
    · have := h1.first
      have := h1'.first
      simp only [mulVec_sub, mulVec_zero]
      rw [add_zero]
      have e := congrArg₂ (· - ·) h1'.first h1.first
      simp only [sub_zero] at e
      rw [← e]
      abel
    · intro j
      simp only [mulVec_sub]
      have e := congrArg₂ (· - ·) (h1'.bulk j) (h1.bulk j)
      simp only [sub_zero] at e
      rw [← e]
      abel
  have hlim := hc'.sub hc
  rw [sub_zero] at hlim
  have hlim2 : Tendsto (fun j : ℕ => (Ψ' j - Ψ j) - outWave (outPhi wf mom s Φ) (fun i => (cexp (-(I * mom (.inr i))))⁻¹) E (Sum.elim (c' - c) 0) j) atTop (nhds 0) := by
    refine hlim.congr fun j => ?_
    have e : (Sum.elim (c' - c) 0 : Fin p ⊕ Fin q → ℂ) = Sum.elim c' 0 - Sum.elim c 0 := by
      ext x
      rcases x with x | x <;> simp
    rw [e, outWave_sub]
    abel
  have hfl := flux_tendsto (padHop hhop) hlim2 (outWave_bounded _ ho.unit _)
  have hconst : ∀ j, flux (padHop hhop) (fun j => Ψ' j - Ψ j) j - flux (padHop hhop) (outWave (outPhi wf mom s Φ) (fun i => (cexp (-(I * mom (.inr i))))⁻¹) E (Sum.elim (c' - c) 0)) j =
      -((∑ i, ‖c' i - c i‖ ^ 2 : ℝ) : ℂ) := by
    intro j
    have e := flux_outWave ho (Sum.elim (c' - c) 0) j
    rw [← hf] at e
    change _ - flux (padHop hhop) (outWave (fromCols _ _) _ E _) j = _
    rw [flux_zero hh hsub, e]
    simp
  have hz : -((∑ i, ‖c' i - c i‖ ^ 2 : ℝ) : ℂ) = 0 := by
    refine tendsto_nhds_unique ?_ hfl
    exact (tendsto_const_nhds).congr fun j => (hconst j).symm
  rw [neg_eq_zero, ofReal_eq_zero, Finset.sum_eq_zero_iff_of_nonneg (fun i _ => by positivity)] at hz
  have hcc : c' - c = 0 := by
    ext i
    have := hz i (Finset.mem_univ i)
    rw [Pi.sub_apply, Pi.zero_apply]
    exact norm_eq_zero.mp (pow_eq_zero_iff (two_ne_zero) |>.mp this)
  have hdec : Tendsto (fun j => Ψ' j - Ψ j) atTop (nhds 0) := by
    refine hlim2.congr fun j => ?_
    rw [hcc]
    have e : (Sum.elim 0 0 : Fin p ⊕ Fin q → ℂ) = 0 := by
      ext x
      rcases x with x | x <;> rfl
    rw [e, outWave, mulVec_zero, mulVec_zero, sub_zero]
  funext j
  exact sub_eq_zero.mp (hn _ hsub hdec j)

/-- The outgoing modes are a basis. -/
theorem outgoing_basis (hs : LeadSpec h (padHop hhop) wf mom vel X Y v s) (hd : ∀ i, 0 < vel (.inr i)) (hn : NoSurfaceState h hhop)
    {vm : Matrix (Fin m) (Fin r) ℂ} (hm : ∀ u : Matrix (Fin n) (Fin r) ℂ, padHop hhop = u * vᴴ → hhop = u * vmᴴ) (hpq : p + q = r) :
    ∃ Xi : Matrix (Fin p ⊕ Fin q) (Fin r) ℂ, X.submatrix id outCols * Xi = 1 ∧ Xi * X.submatrix id outCols = 1 := by
  obtain ⟨u, Φ, E, hf, ho⟩ := out_modes hs hd
  have hinj : ∀ c, X.submatrix id outCols *ᵥ c = 0 → c = 0 := by
    intro c hc
    have hsol := outWave_solution ho hf (hm u hf) (c := c) (φ := 0) (by rw [hc, mulVec_zero])
    have h1 : star c ⬝ᵥ ((I • ((X.submatrix id (outCols : Fin p ⊕ Fin q → _))ᴴ * Y.submatrix id outCols - (Y.submatrix id (outCols : Fin p ⊕ Fin q → _))ᴴ * X.submatrix id outCols)) *ᵥ c) = 0 := by
      rw [smul_mulVec, dotProduct_smul, sub_mulVec, dotProduct_sub, ← mulVec_mulVec, ← mulVec_mulVec, hc, mulVec_zero, dotProduct_zero, dotProduct_mulVec, ← star_mulVec, hc]
      simp
    rw [ho.current, dotProduct, Fintype.sum_sum_type] at h1
    simp only [mulVec_diagonal, Sum.elim_inl, Sum.elim_inr, zero_mul, mul_zero, Finset.sum_const_zero, add_zero, one_mul, Pi.star_apply, star_def, ← Complex.normSq_eq_conj_mul_self] at h1
    rw [← ofReal_sum, ofReal_eq_zero, Finset.sum_eq_zero_iff_of_nonneg (fun i _ => Complex.normSq_nonneg _)] at h1
    have hcp : ∀ i, c (.inl i) = 0 := fun i => Complex.normSq_eq_zero.mp (h1 i (Finset.mem_univ i))
    have hΨ : ∀ j, outWave (fromCols (of fun x i => s (.inr i) * (cexp (-(I * mom (.inr i))))⁻¹ * wf x (.inr i)) Φ) (fun i => (cexp (-(I * mom (.inr i))))⁻¹) E c j =
        Φ *ᵥ (E ^ j *ᵥ (c ∘ Sum.inr)) := by
      intro j
      rw [outWave_split]
      simp only [hcp, zero_smul, smul_zero, Finset.sum_const_zero, zero_add]
      rfl
    have h2 := hn _ hsol ((decay_vec ho.decay Φ (c ∘ Sum.inr)).congr fun j => (hΨ j).symm) 0
    rw [hΨ, pow_zero, one_mulVec] at h2
    have hc2 : c ∘ Sum.inr = 0 := by
      refine ho.indep _ ?_ ?_
      · have : X.submatrix id outCols *ᵥ c = (X.submatrix id (outCols : Fin p ⊕ Fin q → _)).toCols₂ *ᵥ (c ∘ Sum.inr) := by
          ext x
          rw [mulVec, dotProduct, Fintype.sum_sum_type]
          simp only [hcp, mul_zero, Finset.sum_const_zero, zero_add]
          rfl
        rw [← this, hc]
      · have : (Y.submatrix id (outCols : Fin p ⊕ Fin q → _)).toCols₂ = uᴴ * Φ := by
          rw [ho.eY, mul_fromCols, toCols₂_fromCols]
        rw [this, ← mulVec_mulVec, h2, mulVec_zero]
    ext x
    rcases x with x | x
    · exact hcp x
    · exact congrFun hc2 x
  have e : Fin p ⊕ Fin q ≃ Fin r := Fintype.equivOfCardEq (by simp [hpq])
  have hu : IsUnit ((X.submatrix id outCols).submatrix id e.symm) := by
    rw [← mulVec_injective_iff_isUnit]
    intro a b hab
    have h0 : (X.submatrix id outCols).submatrix id e.symm *ᵥ (a - b) = 0 := by
      rw [mulVec_sub, sub_eq_zero]
      exact hab
    have h1 : X.submatrix id outCols *ᵥ ((a - b) ∘ e) = 0 := by
      rw [← h0]
      ext x
      rw [mulVec, mulVec, dotProduct, dotProduct]
      refine Fintype.sum_equiv e _ _ fun i => ?_
      simp
    have h2 := hinj _ h1
    ext i
    have := congrFun h2 (e.symm i)
    simp only [Function.comp_apply, Equiv.apply_symm_apply, Pi.sub_apply, Pi.zero_apply] at this
    exact sub_eq_zero.mp this
  rw [isUnit_iff_isUnit_det] at hu
  refine ⟨((X.submatrix id outCols).submatrix id e.symm)⁻¹.submatrix e id, ?_, ?_⟩
  · have h1 := mul_nonsing_inv _ hu
    have h2 : X.submatrix id outCols * ((X.submatrix id outCols).submatrix id e.symm)⁻¹.submatrix e id =
        (X.submatrix id outCols).submatrix id e.symm * ((X.submatrix id outCols).submatrix id e.symm)⁻¹ := by
      ext a b
      rw [mul_apply, mul_apply]
      refine Fintype.sum_equiv e _ _ fun i => ?_
      simp
    rw [h2, h1]
  · have h1 := nonsing_inv_mul _ hu
    ext a b
    have h2 := congrFun (congrFun h1 (e a)) (e b)
    rw [mul_apply] at h2 ⊢
    simp only [submatrix_apply, id, Equiv.symm_apply_apply] at h2 ⊢
    rw [h2, one_apply, one_apply]
    simp
end

/-- A mode has a definite velocity. -/
theorem mode_velocity {h hop : Matrix (Fin n) (Fin n) ℂ} {p q r : ℕ} {wf : Matrix (Fin n) (Fin p ⊕ Fin p) ℂ} {mom vel : Fin p ⊕ Fin p → ℝ}
    {X Y : Matrix (Fin r) ((Fin p ⊕ Fin p) ⊕ Fin q) ℂ} {v : Matrix (Fin n) (Fin r) ℂ} {s : Fin p ⊕ Fin p → ℂ} (hs : LeadSpec h hop wf mom vel X Y v s)
    (l : Fin p ⊕ Fin p) (z : ℂ) : DefiniteVelocity h hop (mom l) (vel l) (z • wf.col l) := by
  refine ⟨?_, ?_⟩
  · have := hs.bloch l
    rw [isBloch_iff _ _ (Complex.exp_ne_zero _)] at this ⊢
    rw [mulVec_smul h, mulVec_smul hop, mulVec_smul hopᴴ, smul_comm _ z, smul_comm _ z, ← smul_add, ← smul_add, this, smul_zero]
  · intro φ hφ
    obtain ⟨c, hc, hφ⟩ := hs.complete _ φ hφ
    have hφ' : star φ = ∑ l', star (c l') • star (wf.col l') := by
      rw [hφ]
      ext x
      simp [mulVec, dotProduct, mul_comm]
    have hterm : ∀ (f : (Fin p ⊕ Fin p) → ℂ) (y : ℂ), (∀ l', cexp (-(I * mom l')) = cexp (-(I * mom l)) → f l' = if l' = l then y else 0) → ∑ l', star (c l') * f l' = star (c l) * y := by
      intro f y hf
      rw [Finset.sum_eq_single l]
      · rw [hf l rfl, if_pos rfl]
      · intro l' _ hll
        by_cases hp' : cexp (-(I * mom l')) = cexp (-(I * mom l))
        · rw [hf l' hp', if_neg hll, mul_zero]
        · rw [hc l' hp', star_zero, zero_mul]
      · intro h0; exact absurd (Finset.mem_univ _) h0
    rw [hφ', mulVec_smul, dotProduct_smul, dotProduct_smul, sum_dotProduct, sum_dotProduct]
    simp only [smul_dotProduct, smul_eq_mul]
    have o1 := hterm (fun l' => star (wf.col l') ⬝ᵥ wf.col l) ((1 / |vel l| : ℝ) : ℂ) (fun l' hl' => by
      rw [hs.orthogonal l' l hl']
      split
      · rename_i e
        rw [e]
      · rfl)
    have o2 := hterm (fun l' => star (wf.col l') ⬝ᵥ (velK hop (mom l) *ᵥ wf.col l)) ((vel l / |vel l| : ℝ) : ℂ) ?_
    · rw [o1, o2]
      push_cast
      ring
    · intro l' hl'
      rw [velK_eq, ← hl', ← velK_eq, hs.velocity l' l hl']
      split
      · rename_i e
        rw [e]
      · rfl

/-! ### The theorems -/

/-- The hopping to the interface in terms of the attribute `sqrt_hop`. -/
theorem hop_factor {r : ℕ} {hhop : Matrix (Fin n) (Fin m) ℂ} {vm : Matrix (Fin m) (Fin r) ℂ} (hmn : m ≤ n ∨ hhop = 0 ∧ r = 0) (u : Matrix (Fin n) (Fin r) ℂ)
    (hf : padHop hhop = u * (padRows vm : Matrix (Fin n) (Fin r) ℂ)ᴴ) : hhop = u * vmᴴ := by
  rcases hmn with hmn | ⟨h0, hr⟩
  · ext i j
    have h1 := congrFun (congrFun hf i) (Fin.castLE hmn j)
    have e1 : (padHop hhop : Matrix (Fin n) (Fin n) ℂ) i (Fin.castLE hmn j) = hhop i j := by
      exact dif_pos j.2
    rw [← e1, h1, mul_apply, mul_apply]
    refine Finset.sum_congr rfl fun x _ => ?_
    rw [conjTranspose_apply, conjTranspose_apply]
    have e2 : (padRows vm : Matrix (Fin n) (Fin r) ℂ) (Fin.castLE hmn j) x = vm j x := by
      exact dif_pos j.2
    rw [e2]
  · subst hr
    rw [h0]
    ext i j
    rw [mul_apply, Finset.univ_eq_empty, Finset.sum_empty]
    rfl

variable {P : Projectors n} {sy : Symm n} {h : Matrix (Fin n) (Fin n) ℂ} {hhop : Matrix (Fin n) (Fin m) ℂ} {M : LeadModes n m}

/-- The self-energy of modes that satisfy their specification. -/
theorem selfenergy_spec (hM : ModesSpec P sy h hhop M) (hmn : m ≤ n ∨ hhop = 0 ∧ M.r = 0) (hh : h.IsHermitian) (hn : NoSurfaceState h hhop)
    {solve : Solve (Fin M.r) (Fin M.p ⊕ Fin M.q) (Fin m)} (hsv : SolveOk solve) : IsSelfenergy h hhop (selfenergy solve M.stab) := by
  obtain ⟨s, hs, _⟩ := hM.spec
  have hm := hop_factor (vm := M.stab.sqrtHop) hmn
  obtain ⟨Xi, hX1, hX2⟩ := outgoing_basis hs hM.outgoing hn hm hM.number
  obtain ⟨u, Φ, E, hf, ho⟩ := out_modes hs hM.outgoing
  intro φ
  have hc : M.stab.vecslmbdainv.submatrix id outCols *ᵥ (Xi *ᵥ (M.stab.sqrtHopᴴ *ᵥ φ)) = M.stab.sqrtHopᴴ *ᵥ φ := by rw [mulVec_mulVec, hX1, one_mulVec]
  have hsol := outWave_solution ho hf (hm u hf) hc
  have hout : OutgoingWave h (padHop hhop) (outWave (outPhi M.wf M.mom s Φ) (fun i => (cexp (-(I * M.mom (.inr i))))⁻¹) E (Xi *ᵥ (M.stab.sqrtHopᴴ *ᵥ φ))) := by
    generalize Xi *ᵥ (M.stab.sqrtHopᴴ *ᵥ φ) = c
    refine ⟨M.p, fun i => M.mom (.inr i), fun i => M.vel (.inr i), fun i => c (.inl i) • (outPhi M.wf M.mom s Φ).col (.inl i), fun i => ⟨hM.outgoing i, ?_⟩, ?_⟩
    · have e : c (.inl i) • (outPhi M.wf M.mom s Φ).col (.inl i) = (c (.inl i) * (s (.inr i) * (cexp (-(I * M.mom (.inr i))))⁻¹)) • M.wf.col (.inr i) := by
        ext x
        simp only [Pi.smul_apply, smul_eq_mul, col_apply, outPhi, fromCols_apply_inl, of_apply]
        ring
      dsimp only
      rw [e]
      exact mode_velocity hs (.inr i) _
    · refine (decay_vec ho.decay Φ (c ∘ Sum.inr)).congr fun j => ?_
      rw [outWave_split]
      have hexp : ∀ i : Fin M.p, cexp (I * M.mom (.inr i) * j) = (cexp (-(I * M.mom (.inr i))))⁻¹ ^ j := by
        intro i
        rw [← Complex.exp_neg, neg_neg, ← Complex.exp_nat_mul, mul_comm]
      simp only [hexp]
      rw [add_sub_cancel_left]
      rfl
  refine ⟨_, hsol, hout, fun Ψ' h1 h2 => outgoing_unique hh hs hM.incoming hM.outgoing hn hsol hout h1 h2, ?_⟩
  rw [selfenergy, outIdx_eq, hsv _ Xi _ hX1 hX2, outWave, pow_zero, one_mulVec, ho.eY]
  have h1 : hhopᴴ = M.stab.sqrtHop * uᴴ := by
    conv_lhs => rw [hm u hf]
    rw [conjTranspose_mul, conjTranspose_conjTranspose]
  rw [h1]
  simp only [mulVec_mulVec, Matrix.mul_assoc]

/-- The anti-Hermitian part of the self-energy: `W Wᴴ`, with one column for each outgoing mode. -/
theorem broadening_spec (hM : ModesSpec P sy h hhop M) (hmn : m ≤ n ∨ hhop = 0 ∧ M.r = 0) (hn : NoSurfaceState h hhop)
    {solve : Solve (Fin M.r) (Fin M.p ⊕ Fin M.q) (Fin m)} (hsv : SolveOk solve) :
    ∃ W : Matrix (Fin m) (Fin M.p) ℂ, I • (selfenergy solve M.stab - (selfenergy solve M.stab)ᴴ) = W * Wᴴ := by
  obtain ⟨s, hs, _⟩ := hM.spec
  have hm := hop_factor (vm := M.stab.sqrtHop) hmn
  obtain ⟨Xi, hX1, hX2⟩ := outgoing_basis hs hM.outgoing hn hm hM.number
  obtain ⟨u, Φ, E, hf, ho⟩ := out_modes hs hM.outgoing
  rw [selfenergy, outIdx_eq, hsv _ Xi _ hX1 hX2]
  have hcur := ho.current
  generalize M.stab.vecslmbdainv.submatrix id outCols = X at *
  generalize M.stab.vecs.submatrix id outCols = Y at *
  generalize M.stab.sqrtHop = v at *
  have hX1' : Xiᴴ * Xᴴ = 1 := by rw [← conjTranspose_mul, hX1, conjTranspose_one]
  have e : I • (v * Y * (Xi * vᴴ) - (v * Y * (Xi * vᴴ))ᴴ) = v * Xiᴴ * (I • (Xᴴ * Y - Yᴴ * X)) * (Xi * vᴴ) := by
    rw [Matrix.mul_smul, Matrix.smul_mul, Matrix.mul_sub, Matrix.sub_mul]
    congr 2
    · rw [Matrix.mul_assoc v Xiᴴ, ← Matrix.mul_assoc Xiᴴ, hX1', Matrix.one_mul]
    · rw [Matrix.mul_assoc _ (Yᴴ * X), Matrix.mul_assoc Yᴴ, ← Matrix.mul_assoc X, hX1, Matrix.one_mul]
      simp only [conjTranspose_mul, conjTranspose_conjTranspose, Matrix.mul_assoc]
  rw [e, hcur]
  refine ⟨(v * Xiᴴ).submatrix id Sum.inl, ?_⟩
  ext a b
  have hx : Xi * vᴴ = (v * Xiᴴ)ᴴ := by rw [conjTranspose_mul, conjTranspose_conjTranspose]
  rw [hx, mul_apply, mul_apply, Fintype.sum_sum_type]
  simp [mul_diagonal]

theorem modes_size {e : ModesNum} {projectors : Option (Projectors n)} (hM : modes e projectors sy h hhop = .ok M) : m ≤ n ∨ hhop = 0 ∧ M.r = 0 := by
  rw [modes] at hM
  split at hM
  · rename_i h0
    cases hM
    exact .inr ⟨h0, rfl⟩
  · split at hM
    · rename_i hm
      exact .inl hm
    · cases hM

/-- **C115**: the self-energy of the modes of a lead, with conservation laws and symmetries. -/
theorem C115_modes {e : ModesNum} {projectors : Option (Projectors n)} (ho : LeadOk e (projectors.getD (Projectors.default n)) sy h (padHop hhop))
    (hM : modes e projectors sy h hhop = .ok M) (hn : NoSurfaceState h hhop) {solve : Solve (Fin M.r) (Fin M.p ⊕ Fin M.q) (Fin m)} (hsv : SolveOk solve) :
    IsSelfenergy h hhop (selfenergy solve M.stab) ∧ ∃ W : Matrix (Fin m) (Fin M.p) ℂ, I • (selfenergy solve M.stab - (selfenergy solve M.stab)ᴴ) = W * Wᴴ :=
  ⟨selfenergy_spec (C114_modes ho hM) (modes_size hM) ho.herm hn hsv, broadening_spec (C114_modes ho hM) (modes_size hM) hn hsv⟩

/-- The hypotheses about a lead without conservation laws. -/
structure LeadOk0 (e : ModesNum) (h hop : Matrix (Fin n) (Fin n) ℂ) : Prop where
  herm : h.IsHermitian
  edge : NoBandEdge h hop
  flat : NoFlatBand h hop
  infinite : ∀ s0, e.stab = some (s0, true) → NoInfinite h hop
  num : (e.num n).Ok hop
  cut : CutExact (e.num n).lin hop
  sep : ∀ L, setupLinsys (e.num n).lin h hop e.stab = .ok L → WellSeparated (e.num n) L

theorem default_blk (a : Matrix (Fin n) (Fin n) ℂ) (x y : Fin (Projectors.default n).nb) : (Projectors.default n).blk a x y = a := by
  change (1 : Matrix (Fin n) (Fin n) ℂ)ᴴ * a * (1 : Matrix (Fin n) (Fin n) ℂ) = a
  rw [conjTranspose_one, Matrix.one_mul, Matrix.mul_one]

theorem LeadOk0.leadOk {e : ModesNum} {hop : Matrix (Fin n) (Fin n) ℂ} (ho : LeadOk0 e h hop) : LeadOk e (Projectors.default n) ⟨none, none, none⟩ h hop := by
  have hsub : ∀ a b : Fin (Projectors.default n).nb, a = b := fun a b => Subsingleton.elim (α := Fin 1) a b
  refine ⟨⟨?_, fun a b hab => absurd (hsub a b) hab, ?_, fun a b hab => absurd (hsub a b) hab, fun a b hab => absurd (hsub a b) hab⟩, ⟨?_, ?_, ?_⟩, ?_, ho.herm, ho.edge, ho.flat,
    ho.infinite, ?_, ?_, ?_⟩
  · intro b
    change (1 : Matrix (Fin n) (Fin n) ℂ)ᴴ * (1 : Matrix (Fin n) (Fin n) ℂ) = 1
    rw [conjTranspose_one, Matrix.one_mul]
  · change ∑ b : Fin 1, (1 : Matrix (Fin n) (Fin n) ℂ) * (1 : Matrix (Fin n) (Fin n) ℂ)ᴴ = 1
    simp
  · intro U hU; cases hU
  · intro U hU; cases hU
  · intro U hU; cases hU
  · have hz : ∀ {a b : ℕ}, nonzeroSymm (0 : Matrix (Fin a) (Fin b) ℂ) = none := by
      intro a b
      rw [nonzeroSymm, if_neg]
      simp
    refine NoInner.benign ?_ e h hop
    intro b
    refine ⟨?_, ?_, ?_⟩
    · rw [symTr, Projectors.ablk, Option.getD_none, Matrix.mul_zero, Matrix.zero_mul, hz]
    · rw [symPh, Projectors.ablk, Option.getD_none, Matrix.mul_zero, Matrix.zero_mul, hz]
    · rw [symChiral, Projectors.blk, Option.getD_none, Matrix.mul_zero, Matrix.zero_mul, hz]
  · intro b
    have e1 := default_blk hop b b
    exact (congrArg (fun a : Matrix (Fin n) (Fin n) ℂ => (e.num n).Ok a) e1).mpr ho.num
  · intro b
    have e1 := default_blk hop b b
    exact (congrArg (fun a : Matrix (Fin n) (Fin n) ℂ => CutExact (e.num n).lin a) e1).mpr ho.cut
  · intro b L hL
    have e1 := default_blk hop b b
    have e2 := default_blk h b b
    have hL' : setupLinsys (e.num n).lin ((Projectors.default n).blk h b b) ((Projectors.default n).blk hop b b) e.stab = .ok L := hL
    have : setupLinsys (e.num n).lin h hop e.stab = .ok L := by
      refine Eq.trans ?_ hL'
      exact congrArg₂ (fun a b : Matrix (Fin n) (Fin n) ℂ => setupLinsys (e.num n).lin a b e.stab) e2.symm e1.symm
    exact ho.sep L this

/-- **C115**: `selfenergy`. -/
theorem C115_selfenergy {e : ModesNum} (ho : LeadOk0 e h (padHop hhop)) (hn : NoSurfaceState h hhop) {solve : {r p q : ℕ} → Solve (Fin r) (Fin p ⊕ Fin q) (Fin m)}
    (hsv : ∀ {r p q : ℕ}, SolveOk (solve : Solve (Fin r) (Fin p ⊕ Fin q) (Fin m))) {Sig : Matrix (Fin m) (Fin m) ℂ} (hS : leadSelfenergy e h hhop solve = .ok Sig) :
    IsSelfenergy h hhop Sig ∧ ∃ (p : ℕ) (W : Matrix (Fin m) (Fin p) ℂ), I • (Sig - Sigᴴ) = W * Wᴴ := by
  rw [leadSelfenergy] at hS
  split at hS
  · cases hS
  · rename_i M hM
    cases hS
    obtain ⟨h1, W, hW⟩ := C115_modes (projectors := none) (sy := ⟨none, none, none⟩) ho.leadOk hM hn hsv
    exact ⟨h1, _, W, hW⟩

end Kwant.Leads
