import Verif.Leads.LeadSelf

/-!
C116: waves in a lead that consist of incoming, outgoing and evanescent modes, and the current between two waves.
-/

set_option linter.unusedSectionVars false

namespace Kwant.Leads
open Matrix Complex Filter

variable {n m : ℕ}

/-! ### All modes -/

section
variable {N : Type} [Fintype N] [DecidableEq N] {q r : ℕ}

/-- The algebraic content of all modes, with the hopping `u vᴴ`. -/
structure AllModes (h : Matrix (Fin n) (Fin n) ℂ) (u v : Matrix (Fin n) (Fin r) ℂ) (X Y : Matrix (Fin r) (N ⊕ Fin q) ℂ) (Φ : Matrix (Fin n) (N ⊕ Fin q) ℂ)
    (lam : N → ℂ) (E : Matrix (Fin q) (Fin q) ℂ) : Prop where
  eX : X * fromBlocks (diagonal lam) 0 0 E = vᴴ * Φ
  eY : Y = uᴴ * Φ
  eq : h * Φ + v * (Y * fromBlocks (diagonal lam) 0 0 E) + u * X = 0
  unit : ∀ i, ‖lam i‖ = 1
  decay : ∀ a b, Tendsto (fun t : ℕ => (E ^ t) a b) atTop (nhds 0)

/-- The wave functions of the stabilized modes in the first cell of the lead. -/
noncomputable def allPhi (wf : Matrix (Fin n) N ℂ) (mom : N → ℝ) (s : N → ℂ) (Φ : Matrix (Fin n) (Fin q) ℂ) : Matrix (Fin n) (N ⊕ Fin q) ℂ :=
  fromCols (of fun x i => s i * (cexp (-(I * mom i)))⁻¹ * wf x i) Φ

theorem all_modes {h hop : Matrix (Fin n) (Fin n) ℂ} {wf : Matrix (Fin n) N ℂ} {mom vel : N → ℝ}
    {X Y : Matrix (Fin r) (N ⊕ Fin q) ℂ} {v : Matrix (Fin n) (Fin r) ℂ} {s : N → ℂ} (hs : LeadSpec h hop wf mom vel X Y v s) :
    ∃ (u : Matrix (Fin n) (Fin r) ℂ) (Φ : Matrix (Fin n) (Fin q) ℂ) (E : Matrix (Fin q) (Fin q) ℂ), hop = u * vᴴ ∧ (∀ x, u *ᵥ x = 0 → x = 0) ∧
      AllModes h u v X Y (allPhi wf mom s Φ) (fun i => (cexp (-(I * mom i)))⁻¹) E := by
  obtain ⟨u, hf, hu, hp, Φ, E, hE, e1, e2, e3⟩ := hs.solves
  refine ⟨u, Φ, E, hf, hu, ?_⟩
  have hXo : X = fromCols X.toCols₁ X.toCols₂ := (fromCols_toCols X).symm
  have hYo : Y = fromCols Y.toCols₁ Y.toCols₂ := (fromCols_toCols Y).symm
  have hne : ∀ i, cexp (-(I * mom i)) ≠ 0 := fun i => Complex.exp_ne_zero _
  have hYp : Y.toCols₁ = uᴴ * (of fun x i => s i * (cexp (-(I * mom i)))⁻¹ * wf x i) := by
    ext a i
    have h1 := congrFun (hp i).2 a
    rw [Pi.smul_apply, Pi.smul_apply, smul_eq_mul, smul_eq_mul] at h1
    have h2 : Y a (.inl i) = (cexp (-(I * mom i)))⁻¹ * (s i * (uᴴ *ᵥ wf.col i) a) := by
      rw [← h1, inv_mul_cancel_left₀ (hne i)]
      rfl
    change Y a (.inl i) = _
    rw [h2, mulVec, dotProduct, mul_apply, Finset.mul_sum, Finset.mul_sum]
    refine Finset.sum_congr rfl fun x _ => ?_
    rw [of_apply]
    change _ * (_ * (_ * wf x i)) = _
    ring
  have hXe : ∀ a i, X a (.inl i) = s i * (vᴴ *ᵥ wf.col i) a := by
    intro a i
    have h1 := congrFun (hp i).1 a
    rw [Pi.smul_apply, smul_eq_mul] at h1
    exact h1
  have hXp : X.toCols₁ * diagonal (fun i => (cexp (-(I * mom i)))⁻¹) = vᴴ * (of fun x i => s i * (cexp (-(I * mom i)))⁻¹ * wf x i) := by
    ext a i
    rw [mul_diagonal]
    change X a (.inl i) * _ = _
    rw [hXe, mulVec, dotProduct, mul_apply, Finset.mul_sum, Finset.sum_mul]
    refine Finset.sum_congr rfl fun x _ => ?_
    rw [of_apply]
    change _ * (_ * wf x i) * _ = _
    ring
  refine ⟨?_, ?_, ?_, ?_, hE⟩
  · rw [hXo, fromCols_mul_fromBlocks, allPhi, mul_fromCols, Matrix.mul_zero, Matrix.mul_zero, add_zero, zero_add, hXp, e1]
  · rw [hYo, allPhi, mul_fromCols, hYp, e2]
  · have hcol : h * (of fun x i => s i * (cexp (-(I * mom i)))⁻¹ * wf x i) + v * (Y.toCols₁ * diagonal (fun i => (cexp (-(I * mom i)))⁻¹)) + u * X.toCols₁ = 0 := by
      have hXp' : X.toCols₁ = vᴴ * (of fun x i => s i * wf x i) := by
        ext a i
        change X a (.inl i) = _
        rw [hXe, mulVec, dotProduct, mul_apply, Finset.mul_sum]
        refine Finset.sum_congr rfl fun x _ => ?_
        rw [of_apply]
        change _ * (_ * wf x i) = _
        ring
      rw [hYp, hXp', ← Matrix.mul_assoc u, ← hf, Matrix.mul_assoc, ← Matrix.mul_assoc v]
      have hvu : v * uᴴ = hopᴴ := by rw [hf, conjTranspose_mul, conjTranspose_conjTranspose]
      rw [hvu]
      ext a i
      have hb := hs.bloch i
      rw [isBloch_iff _ _ (hne i)] at hb
      have hb := congrArg (fun z => s i * (cexp (-(I * mom i)))⁻¹ * z) (congrFun hb a)
      simp only [Pi.add_apply, Pi.smul_apply, smul_eq_mul, Pi.zero_apply, mul_zero, mulVec, dotProduct, mul_add] at hb
      rw [Matrix.add_apply, Matrix.add_apply, mul_apply, mul_apply, mul_apply, Matrix.zero_apply, ← hb]
      simp only [mul_diagonal, of_apply, Finset.mul_sum]
      rw [add_right_comm]
      have hne' := hne i
      generalize cexp (-(I * mom i)) = μ at *
      congr 1
      · congr 1
        · refine Finset.sum_congr rfl fun x _ => ?_
          change _ = _ * (_ * wf x i)
          ring
        · refine Finset.sum_congr rfl fun x _ => ?_
          change _ = _ * (_ * (_ * wf x i))
          field_simp
      · refine Finset.sum_congr rfl fun x _ => ?_
        change _ = _ * (_ * (_ * wf x i))
        ring
    rw [hXo, hYo, allPhi, mul_fromCols, fromCols_mul_fromBlocks, mul_fromCols, mul_fromCols, Matrix.mul_zero, Matrix.mul_zero, add_zero, zero_add]
    ext a b
    rcases b with b | b
    · exact congrFun (congrFun hcol a) b
    · exact congrFun (congrFun e3 a) b
  · intro i
    rw [norm_inv, norm_cexp_mom, inv_one]

variable {h : Matrix (Fin n) (Fin n) ℂ} {hhop : Matrix (Fin n) (Fin m) ℂ} {u v : Matrix (Fin n) (Fin r) ℂ} {vm : Matrix (Fin m) (Fin r) ℂ}
  {X Y : Matrix (Fin r) (N ⊕ Fin q) ℂ} {Φ : Matrix (Fin n) (N ⊕ Fin q) ℂ} {lam : N → ℂ} {E : Matrix (Fin q) (Fin q) ℂ}

/-- The wave with the amplitudes `c` of the modes. -/
noncomputable def modeWave (Φ : Matrix (Fin n) (N ⊕ Fin q) ℂ) (lam : N → ℂ) (E : Matrix (Fin q) (Fin q) ℂ) (c : N ⊕ Fin q → ℂ) (j : ℕ) : Fin n → ℂ :=
  Φ *ᵥ ((fromBlocks (diagonal lam) 0 0 E) ^ j *ᵥ c)

theorem modeWave_solution (ho : AllModes h u v X Y Φ lam E) (hf : padHop hhop = u * vᴴ) (hm : hhop = u * vmᴴ) {c : N ⊕ Fin q → ℂ} {φ : Fin m → ℂ}
    (hc : X *ᵥ c = vmᴴ *ᵥ φ) : LeadSolution h hhop φ (modeWave Φ lam E c) := by
  have hH : (padHop hhop : Matrix (Fin n) (Fin n) ℂ)ᴴ = v * uᴴ := by rw [hf, conjTranspose_mul, conjTranspose_conjTranspose]
  constructor
  · rw [hH]
    simp only [modeWave, pow_zero, one_mulVec, pow_one]
    have h1 : hhop *ᵥ φ = (u * X) *ᵥ c := by rw [hm, ← mulVec_mulVec, ← hc, mulVec_mulVec]
    rw [h1]
    have h2 := congrArg (· *ᵥ c) ho.eq
    simp only [add_mulVec, zero_mulVec] at h2
    rw [← h2, ho.eY]
    simp only [mulVec_mulVec, Matrix.mul_assoc]
  · intro j
    rw [hH, hf]
    simp only [modeWave]
    have h2 := congrArg (· *ᵥ (fromBlocks (diagonal lam) 0 0 E ^ (j + 1) *ᵥ c)) ho.eq
    simp only [add_mulVec, zero_mulVec] at h2
    rw [← h2]
    congr 1
    · congr 1
      · simp only [mulVec_mulVec, Matrix.mul_assoc]
      · rw [ho.eY]
        simp only [mulVec_mulVec, Matrix.mul_assoc, ← pow_succ']
    · have h3 := ho.eX
      rw [mulVec_mulVec, Matrix.mul_assoc u, ← h3]
      simp only [mulVec_mulVec, Matrix.mul_assoc, ← pow_succ']

theorem modeWave_split (c : N ⊕ Fin q → ℂ) (j : ℕ) :
    modeWave Φ lam E c j = (∑ i, (lam i) ^ j • (c (.inl i) • Φ.col (.inl i))) + Φ.toCols₂ *ᵥ (E ^ j *ᵥ (c ∘ Sum.inr)) := by
  rw [modeWave, fromBlocks_diagonal_pow, diagonal_pow]
  ext x
  rw [mulVec, dotProduct, Fintype.sum_sum_type, Pi.add_apply, Finset.sum_apply]
  congr 1
  · refine Finset.sum_congr rfl fun i _ => ?_
    rw [fromBlocks_mulVec]
    simp only [Sum.elim_inl, mulVec_diagonal, zero_mulVec, add_zero, Pi.smul_apply, smul_eq_mul, col_apply, Pi.pow_apply, Function.comp_apply]
    ring
  · rw [fromBlocks_mulVec]
    simp only [Sum.elim_inr, zero_mulVec, zero_add]
    rfl

theorem modeWave_bounded (hl : ∀ i, ‖lam i‖ = 1) (c : N → ℂ) (x : Fin n) : ∃ B, ∀ j, ‖modeWave Φ lam E (Sum.elim c 0) j x‖ ≤ B := by
  refine ⟨∑ i, ‖c i‖ * ‖Φ x (.inl i)‖, fun j => ?_⟩
  rw [modeWave_split]
  have h0 : (Sum.elim c 0 ∘ Sum.inr : Fin q → ℂ) = 0 := rfl
  rw [h0, mulVec_zero, mulVec_zero, add_zero, Finset.sum_apply]
  refine (norm_sum_le _ _).trans (Finset.sum_le_sum fun i _ => ?_)
  simp only [Pi.smul_apply, smul_eq_mul, col_apply, Sum.elim_inl, norm_mul, norm_pow, hl, one_pow, one_mul]
  exact le_rfl

theorem modeWave_decay (hE : ∀ a b, Tendsto (fun t : ℕ => (E ^ t) a b) atTop (nhds 0)) (c : N ⊕ Fin q → ℂ) :
    Tendsto (fun j => modeWave Φ lam E c j - modeWave Φ lam E (Sum.elim (c ∘ Sum.inl) 0) j) atTop (nhds 0) := by
  refine (decay_vec hE Φ.toCols₂ (c ∘ Sum.inr)).congr fun j => ?_
  rw [modeWave_split, modeWave_split]
  have h0 : (Sum.elim (c ∘ Sum.inl) 0 ∘ Sum.inr : Fin q → ℂ) = 0 := rfl
  rw [h0, mulVec_zero, mulVec_zero, add_zero]
  simp only [Sum.elim_inl, Function.comp_apply, add_sub_cancel_left]

/-! ### The current between two waves -/

/-- The current from cell `j` to cell `j + 1`, as a sesquilinear form of two waves. -/
noncomputable def flux2 (hop : Matrix (Fin n) (Fin n) ℂ) (Ψ Ψ' : ℕ → Fin n → ℂ) (j : ℕ) : ℂ :=
  I * (star (Ψ j) ⬝ᵥ (hopᴴ *ᵥ Ψ' (j + 1)) - star (Ψ (j + 1)) ⬝ᵥ (hop *ᵥ Ψ' j))

theorem flux2_bulk {hop : Matrix (Fin n) (Fin n) ℂ} (hh : h.IsHermitian) {Ψ Ψ' : ℕ → Fin n → ℂ} {j : ℕ} (hb : h *ᵥ Ψ (j + 1) + hopᴴ *ᵥ Ψ (j + 2) + hop *ᵥ Ψ j = 0)
    (hb' : h *ᵥ Ψ' (j + 1) + hopᴴ *ᵥ Ψ' (j + 2) + hop *ᵥ Ψ' j = 0) : flux2 hop Ψ Ψ' (j + 1) = flux2 hop Ψ Ψ' j := by
  have h1 := congrArg (star (Ψ (j + 1)) ⬝ᵥ ·) hb'
  simp only [dotProduct_add, dotProduct_zero] at h1
  have h2 := congrArg star (congrArg (star (Ψ' (j + 1)) ⬝ᵥ ·) hb)
  simp only [dotProduct_add, dotProduct_zero, star_add, star_form, hh.eq, conjTranspose_conjTranspose, star_zero] at h2
  rw [flux2, flux2]
  linear_combination I * h1 - I * h2

theorem star_form' {a b : ℕ} (M : Matrix (Fin a) (Fin b) ℂ) (x : Fin a → ℂ) (y : Fin b → ℂ) : star (star x ⬝ᵥ (M *ᵥ y)) = star y ⬝ᵥ (Mᴴ *ᵥ x) := by
  rw [← star_dotProduct, star_mulVec, ← dotProduct_mulVec]

/-- The current in the lead is the one from the interface. -/
theorem flux2_solution (hh : h.IsHermitian) {φ φ' : Fin m → ℂ} {Ψ Ψ' : ℕ → Fin n → ℂ} (hs : LeadSolution h hhop φ Ψ) (hs' : LeadSolution h hhop φ' Ψ') (j : ℕ) :
    flux2 (padHop hhop) Ψ Ψ' j = I * (star φ ⬝ᵥ (hhopᴴ *ᵥ Ψ' 0) - star (Ψ 0) ⬝ᵥ (hhop *ᵥ φ')) := by
  induction j with
  | zero =>
    have h1 := congrArg (star (Ψ 0) ⬝ᵥ ·) hs'.first
    simp only [dotProduct_add, dotProduct_zero] at h1
    have h2 := congrArg star (congrArg (star (Ψ' 0) ⬝ᵥ ·) hs.first)
    simp only [dotProduct_add, dotProduct_zero, star_add, star_form, star_form' hhop, hh.eq, conjTranspose_conjTranspose, star_zero] at h2
    rw [flux2]
    linear_combination I * h1 - I * h2
  | succ j ih => rw [flux2_bulk hh (hs.bulk j) (hs'.bulk j), ih]

theorem flux2_modeWave (ho : AllModes h u v X Y Φ lam E) {g : N → ℂ} (hcur : I • (Xᴴ * Y - Yᴴ * X) = diagonal (Sum.elim g fun _ => 0)) (c c' : N ⊕ Fin q → ℂ) (j : ℕ) :
    flux2 (u * vᴴ) (modeWave Φ lam E c) (modeWave Φ lam E c') j = ∑ i, g i * (star (c (.inl i)) * c' (.inl i)) := by
  have hv : ∀ c j, vᴴ *ᵥ modeWave Φ lam E c j = X *ᵥ (fromBlocks (diagonal lam) 0 0 E ^ (j + 1) *ᵥ c) := by
    intro c j
    rw [modeWave, mulVec_mulVec, ← ho.eX, mulVec_mulVec, mulVec_mulVec, Matrix.mul_assoc, ← pow_succ']
  have hu : ∀ c j, uᴴ *ᵥ modeWave Φ lam E c j = Y *ᵥ (fromBlocks (diagonal lam) 0 0 E ^ j *ᵥ c) := by
    intro c j
    rw [modeWave, ho.eY, mulVec_mulVec]
  have key : flux2 (u * vᴴ) (modeWave Φ lam E c) (modeWave Φ lam E c') j =
      star (fromBlocks (diagonal lam) 0 0 E ^ (j + 1) *ᵥ c) ⬝ᵥ ((I • (Xᴴ * Y - Yᴴ * X)) *ᵥ (fromBlocks (diagonal lam) 0 0 E ^ (j + 1) *ᵥ c')) := by
    rw [flux2, conjTranspose_mul, conjTranspose_conjTranspose, ← mulVec_mulVec, ← mulVec_mulVec, hv, hu, dotProduct_mulVec, dotProduct_mulVec (star (modeWave Φ lam E c (j + 1)))]
    have e1 : star (modeWave Φ lam E c j) ᵥ* v = star (vᴴ *ᵥ modeWave Φ lam E c j) := by rw [star_mulVec, conjTranspose_conjTranspose]
    have e2 : star (modeWave Φ lam E c (j + 1)) ᵥ* u = star (uᴴ *ᵥ modeWave Φ lam E c (j + 1)) := by rw [star_mulVec, conjTranspose_conjTranspose]
    rw [e1, e2, hv, hu]
    generalize fromBlocks (diagonal lam) 0 0 E ^ (j + 1) *ᵥ c = d
    generalize fromBlocks (diagonal lam) 0 0 E ^ (j + 1) *ᵥ c' = d'
    rw [smul_mulVec, dotProduct_smul, sub_mulVec, dotProduct_sub, star_mulVec, star_mulVec, ← dotProduct_mulVec, ← dotProduct_mulVec, mulVec_mulVec, mulVec_mulVec, smul_eq_mul]
  rw [key, hcur, fromBlocks_diagonal_pow, diagonal_pow, fromBlocks_mulVec, fromBlocks_mulVec, dotProduct, Fintype.sum_sum_type]
  simp only [mulVec_diagonal, Sum.elim_inl, Sum.elim_inr, zero_mul, mul_zero, Finset.sum_const_zero, add_zero, zero_mulVec, Pi.star_apply, Pi.pow_apply, Function.comp_apply]
  refine Finset.sum_congr rfl fun i _ => ?_
  have h0 : star (lam i ^ (j + 1)) * lam i ^ (j + 1) = 1 := by
    rw [star_def, ← Complex.normSq_eq_conj_mul_self, Complex.normSq_eq_norm_sq, norm_pow, ho.unit, one_pow]
    simp
  rw [star_mul]
  linear_combination (g i * star (c (.inl i)) * c' (.inl i)) * h0

theorem flux2_eq (hop : Matrix (Fin n) (Fin n) ℂ) (Ψ Ψ' : ℕ → Fin n → ℂ) (j : ℕ) :
    4 * flux2 hop Ψ Ψ' j = flux hop (fun j => Ψ j + Ψ' j) j - flux hop (fun j => Ψ j - Ψ' j) j - I * flux hop (fun j => Ψ j + I • Ψ' j) j + I * flux hop (fun j => Ψ j - I • Ψ' j) j := by
  simp only [flux, flux2, star_add, star_sub, star_smul, star_def, conj_I, mulVec_add, mulVec_sub, mulVec_smul, add_dotProduct, sub_dotProduct, dotProduct_add, dotProduct_sub, dotProduct_smul,
    smul_dotProduct, smul_eq_mul]
  ring_nf
  simp only [I_sq, show I ^ 3 = -I by rw [pow_succ, I_sq]; ring]
  ring

/-- The current between two waves tends to that between the parts that do not decay. -/
theorem flux2_tendsto (hop : Matrix (Fin n) (Fin n) ℂ) {Ψ Ψ' Υ Υ' : ℕ → Fin n → ℂ} (hd : Tendsto (fun j => Ψ j - Υ j) atTop (nhds 0)) (hd' : Tendsto (fun j => Ψ' j - Υ' j) atTop (nhds 0))
    (hb : ∀ x, ∃ B, ∀ j, ‖Υ j x‖ ≤ B) (hb' : ∀ x, ∃ B, ∀ j, ‖Υ' j x‖ ≤ B) : Tendsto (fun j => flux2 hop Ψ Ψ' j - flux2 hop Υ Υ' j) atTop (nhds 0) := by
  have key : ∀ z : ℂ, Tendsto (fun j => flux hop (fun j => Ψ j + z • Ψ' j) j - flux hop (fun j => Υ j + z • Υ' j) j) atTop (nhds 0) := by
    intro z
    refine flux_tendsto hop ?_ ?_
    · have := hd.add (hd'.const_smul z)
      rw [smul_zero, add_zero] at this
      refine this.congr fun j => ?_
      rw [smul_sub]
      abel
    · intro x
      obtain ⟨B, hB⟩ := hb x
      obtain ⟨B', hB'⟩ := hb' x
      refine ⟨B + ‖z‖ * B', fun j => ?_⟩
      rw [Pi.add_apply, Pi.smul_apply, smul_eq_mul]
      refine (norm_add_le _ _).trans (add_le_add (hB j) ?_)
      rw [norm_mul]
      exact mul_le_mul_of_nonneg_left (hB' j) (norm_nonneg _)
  have h1 := key 1
  have h2 := key (-1)
  have h3 := key I
  have h4 := key (-I)
  simp only [one_smul, neg_smul, ← sub_eq_add_neg] at h1 h2 h3 h4
  have h5 := ((((h1.sub h2).sub (h3.const_mul I)).add (h4.const_mul I)).const_mul (1 / 4))
  simp only [sub_zero, mul_zero, add_zero] at h5
  refine h5.congr fun j => ?_
  have e1 := flux2_eq hop Ψ Ψ' j
  have e2 := flux2_eq hop Υ Υ' j
  linear_combination (-1 / 4) * e1 + (1 / 4) * e2
end

end Kwant.Leads
