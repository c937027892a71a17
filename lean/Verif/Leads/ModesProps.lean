import Verif.Leads.ModesSpec

/-!
C114: the specification `LeadSpec` is kept by a renumbering of the modes, by `transform_modes`, and by joining blocks.
-/

set_option linter.unusedSectionVars false

namespace Kwant.Leads
open Matrix Complex Filter

variable {n : ℕ}

section Reindex
variable {N Q R N' Q' R' : Type} [Fintype N] [Fintype Q] [Fintype R] [DecidableEq N] [DecidableEq Q] [DecidableEq R]
  [Fintype N'] [Fintype Q'] [Fintype R'] [DecidableEq N'] [DecidableEq Q'] [DecidableEq R']

theorem submatrix_equiv_mul {A B C A' B' C' : Type} [Fintype B] [Fintype B'] (M : Matrix A B ℂ) (M' : Matrix B C ℂ) (a : A' → A) (b : B' ≃ B) (c : C' → C) :
    M.submatrix a b * M'.submatrix b c = (M * M').submatrix a c := (submatrix_mul_equiv M M' a b c)

theorem pow_submatrix (E : Matrix Q Q ℂ) (g : Q' ≃ Q) (t : ℕ) : (E.submatrix g g) ^ t = (E ^ t).submatrix g g := by
  induction t with
  | zero => rw [pow_zero, pow_zero, submatrix_one_equiv]
  | succ t ih => rw [pow_succ, pow_succ, ih, submatrix_equiv_mul]

/-- Renumbering of the modes. -/
theorem LeadSpec.reindex {h hop : Matrix (Fin n) (Fin n) ℂ} {wf : Matrix (Fin n) N ℂ} {mom vel : N → ℝ} {X Y : Matrix R (N ⊕ Q) ℂ} {v : Matrix (Fin n) R ℂ} {s : N → ℂ}
    (hs : LeadSpec h hop wf mom vel X Y v s) (f : N' ≃ N) (g : Q' ≃ Q) (k : R' ≃ R) :
    LeadSpec h hop (wf.submatrix id f) (mom ∘ f) (vel ∘ f) (X.submatrix k (Sum.map f g)) (Y.submatrix k (Sum.map f g)) (v.submatrix id k) (s ∘ f) := by
  have hX2 : ∀ Z : Matrix R (N ⊕ Q) ℂ, (Z.submatrix k (Sum.map f g)).toCols₂ = Z.toCols₂.submatrix k g := fun Z => rfl
  have hfg : (Sum.map f g : N' ⊕ Q' → N ⊕ Q) = (Equiv.sumCongr f g) := rfl
  refine ⟨?_, fun i => hs.nonzero _, fun i => hs.range _, fun i => hs.bloch _, ?_, ?_, ?_, fun i => hs.sign _, ?_, ?_, ?_⟩
  · rw [Fintype.card_congr f, Fintype.card_congr g, Fintype.card_congr k]; exact hs.number
  · intro i j hij
    have := hs.orthogonal (f i) (f j) hij
    simp only [f.injective.eq_iff] at this
    exact this
  · intro i j hij
    have := hs.velocity (f i) (f j) hij
    simp only [f.injective.eq_iff] at this
    exact this
  · intro κ ψ hψ
    obtain ⟨c, h1, h2⟩ := hs.complete κ ψ hψ
    refine ⟨c ∘ f, fun i hi => h1 _ hi, ?_⟩
    rw [h2]
    ext x
    rw [mulVec, dotProduct, mulVec, dotProduct, ← Equiv.sum_comp f]
    rfl
  · obtain ⟨u, h1, h2, h3, Φ, E, h4, h5, h6, h7⟩ := hs.solves
    refine ⟨u.submatrix id k, ?_, ?_, ?_, Φ.submatrix id g, E.submatrix g g, ?_, ?_, ?_, ?_⟩
    · rw [conjTranspose_submatrix, submatrix_equiv_mul, ← h1, submatrix_id_id]
    · intro x hx
      have : u *ᵥ (x ∘ k.symm) = 0 := by
        rw [← hx]
        ext i
        rw [mulVec, dotProduct, mulVec, dotProduct, ← Equiv.sum_comp k]
        simp
      have h8 := h2 _ this
      ext i
      have := congrFun h8 (k i)
      simpa using this
    · intro i
      obtain ⟨a, b⟩ := h3 (f i)
      constructor
      · ext x; exact congrFun a (k x)
      · ext x; exact congrFun b (k x)
    · intro a b
      simp only [pow_submatrix]
      exact h4 _ _
    · rw [hX2, submatrix_equiv_mul, h5, conjTranspose_submatrix]
      rfl
    · rw [hX2, h6, conjTranspose_submatrix]
      rfl
    · rw [hX2, hX2, submatrix_equiv_mul, submatrix_equiv_mul, submatrix_equiv_mul]
      have : h * Φ.submatrix id g = (h * Φ).submatrix id g := rfl
      rw [this]
      ext i j
      exact congrFun (congrFun h7 i) (g j)
  · rw [conjTranspose_submatrix, conjTranspose_submatrix, submatrix_equiv_mul, submatrix_equiv_mul]
    have h1 := hs.current
    ext a b
    have := congrFun (congrFun h1 (Sum.map f g a)) (Sum.map f g b)
    refine Eq.trans this ?_
    rw [diagonal_apply, diagonal_apply, hfg]
    simp only [(Equiv.sumCongr f g).injective.eq_iff]
    split
    · rcases a with a | a <;> rfl
    · rfl
  · intro c h1 h2
    have e : ∀ Z : Matrix R (N ⊕ Q) ℂ, (Z.submatrix k (Sum.map f g)).toCols₂ *ᵥ c = 0 → Z.toCols₂ *ᵥ (c ∘ g.symm) = 0 := by
      intro Z hZ
      ext i
      have := congrFun hZ (k.symm i)
      rw [hX2, mulVec, dotProduct] at this
      rw [mulVec, dotProduct, ← Equiv.sum_comp g]
      simpa using this
    have h3 := hs.indep _ (e _ h1) (e _ h2)
    ext i
    have := congrFun h3 (g i)
    simpa using this

/-- The modes of a block satisfy the specification. -/
theorem BlockSpec.lead {h hop : Matrix (Fin n) (Fin n) ℂ} {m : BlockModes n} (hm : BlockSpec h hop m) :
    LeadSpec h hop m.waveFunctions m.momenta m.velocities m.vecslmbdainv m.vecs m.v fun _ => 1 := by
  have hmom : ∀ i j, cexp (-(I * m.momenta i)) = cexp (-(I * m.momenta j)) → m.momenta i = m.momenta j := by
    intro i j hij
    rw [Complex.exp_eq_exp_iff_exists_int] at hij
    obtain ⟨t, ht⟩ := hij
    have h1 : m.momenta i = m.momenta j - t * (2 * Real.pi) := by
      have h2 : (m.momenta i : ℂ) = m.momenta j - t * (2 * Real.pi) := by
        apply mul_left_cancel₀ I_ne_zero
        linear_combination -ht
      exact_mod_cast h2
    obtain ⟨a1, a2⟩ := hm.range i
    obtain ⟨b1, b2⟩ := hm.range j
    have hpi := Real.pi_pos
    have h3 : (t : ℝ) < 1 := by nlinarith
    have h4 : (-1 : ℝ) < t := by nlinarith
    have h5 : t = 0 := by
      have h3' : t < 1 := by exact_mod_cast h3
      have h4' : -1 < t := by exact_mod_cast h4
      omega
    rw [h1, h5]; simp
  obtain ⟨u, h1, h2, h3, Φ, E, h4, h5, h6, h7, h8⟩ := hm.solves
  refine ⟨?_, hm.nonzero, ?_, fun i => (h3 i).1, fun i j hij => hm.orthogonal i j (hmom i j hij), fun i j hij => hm.velocity i j (hmom i j hij), hm.complete, fun _ => .inl rfl,
    ⟨u, h1, h2, ?_, Φ, E, pow_tendsto_zero h4 h5, h6, h7, h8⟩, ?_, hm.indep⟩
  · have := hm.number
    have := hm.even
    simp only [Fintype.card_fin]
    omega
  · intro i
    obtain ⟨a1, a2⟩ := hm.range i
    rw [abs_le]
    exact ⟨a1, a2.le⟩
  · intro i
    rw [one_smul, one_smul]
    exact (h3 i).2
  · rw [← current_eq, hm.current]
    congr 1
    ext i
    rcases i with i | i
    · simp only [Sum.elim_inl]
      have hn := hm.nonzero i
      by_cases hv : m.velocities i < 0
      · rw [if_pos ((hm.halves i).mp hv), abs_of_neg hv, div_neg, div_self hn]; norm_num
      · rw [if_neg (fun h6 => hv ((hm.halves i).mpr h6)), abs_of_nonneg (not_lt.mp hv), div_self hn]; norm_num
    · rfl

end Reindex

/-! ### Transformation -/

theorem cj_star (c : Bool) (z : ℂ) : cj c (star z) = star (cj c z) := by
  cases c <;> simp [cj]

theorem cj_ofReal (c : Bool) (x : ℝ) : cj c (x : ℂ) = x := by
  cases c <;> simp [cj]

theorem cj_cj (c : Bool) (z : ℂ) : cj c (cj c z) = z := by
  cases c <;> simp [cj]

theorem cj_conjTranspose (c : Bool) {A B : Type} (M : Matrix A B ℂ) : (M.map (cj c))ᴴ = Mᴴ.map (cj c) := by
  ext i j
  rw [conjTranspose_apply, map_apply, map_apply, conjTranspose_apply, cj_star]

theorem cj_mul (c : Bool) {A B C : Type} [Fintype B] (M : Matrix A B ℂ) (M' : Matrix B C ℂ) : (M * M').map (cj c) = M.map (cj c) * M'.map (cj c) := Matrix.map_mul

theorem cj_mulVec (c : Bool) {A B : Type} [Fintype B] (M : Matrix A B ℂ) (x : B → ℂ) : M.map (cj c) *ᵥ (cj c ∘ x) = cj c ∘ (M *ᵥ x) := by
  ext i
  rw [Function.comp_apply, RingHom.map_mulVec]

theorem cj_tendsto (c : Bool) {f : ℕ → ℂ} (hf : Tendsto f atTop (nhds 0)) : Tendsto (fun t => cj c (f t)) atTop (nhds 0) := by
  have hc : Continuous (cj c) := by
    cases c
    · exact continuous_id
    · exact Complex.continuous_conj
  have := (hc.tendsto 0).comp hf
  rw [map_zero] at this
  exact this

theorem cj_I (c : Bool) : cj c I = (if c then -1 else 1 : ℂ) * I := by
  cases c <;> simp [cj]

/-- The sign of the velocities. -/
theorem cexp_cj (c : Bool) (k : ℝ) : cexp (-(I * (((if c then -1 else 1 : ℝ) * k : ℝ) : ℂ))) = cj c (cexp (-(I * k))) := by
  cases c
  · simp [cj]
  · simp only [cj, if_true]
    rw [← Complex.exp_conj, map_neg, map_mul, conj_I, conj_ofReal]
    congr 1
    push_cast
    ring

section Transform
variable {N Q R : Type} [Fintype N] [Fintype Q] [Fintype R] [DecidableEq N] [DecidableEq Q] [DecidableEq R] {n' : ℕ}

/-- The block with the Hamiltonian `± U h Uᴴ` or `± U h* Uᴴ`, as in the table of the symmetries. -/
structure Related (U : Matrix (Fin n') (Fin n) ℂ) (conj flip : Bool) (h hop : Matrix (Fin n) (Fin n) ℂ) (h' hop' : Matrix (Fin n') (Fin n') ℂ) : Prop where
  left : Uᴴ * U = 1
  right : U * Uᴴ = 1
  cell : h' * U = (if flip then -1 else 1 : ℂ) • (U * h.map (cj conj))
  hop : hop' * U = (if flip then -1 else 1 : ℂ) • (U * hop.map (cj conj))

variable {U : Matrix (Fin n') (Fin n) ℂ} {c fl : Bool} {h hop : Matrix (Fin n) (Fin n) ℂ} {h' hop' : Matrix (Fin n') (Fin n') ℂ}

theorem Related.hopH (hr : Related U c fl h hop h' hop') : hop'ᴴ * U = (if fl then -1 else 1 : ℂ) • (U * hopᴴ.map (cj c)) := by
  have h1 := congrArg (fun M => U * Mᴴ * U) hr.hop
  simp only [conjTranspose_mul, conjTranspose_smul] at h1
  rw [← Matrix.mul_assoc, hr.right, Matrix.one_mul] at h1
  rw [h1, Matrix.mul_smul, Matrix.smul_mul, cj_conjTranspose, Matrix.mul_assoc, Matrix.mul_assoc, hr.left, Matrix.mul_one]
  cases fl <;> simp

theorem Related.bloch (hr : Related U c fl h hop h' hop') {μ : ℂ} (hμ : μ ≠ 0) {ψ : Fin n → ℂ} (hψ : IsBloch h hop μ ψ) :
    IsBloch h' hop' (cj c μ) (U *ᵥ (cj c ∘ ψ)) := by
  rw [isBloch_iff _ _ hμ] at hψ
  have hμ' : cj c μ ≠ 0 := (map_ne_zero _).mpr hμ
  rw [isBloch_iff _ _ hμ', mulVec_mulVec, mulVec_mulVec, mulVec_mulVec, hr.cell, hr.hop, hr.hopH]
  simp only [smul_mulVec, ← mulVec_mulVec, cj_mulVec]
  have h1 : ∀ (z : ℂ) (x : Fin n → ℂ), cj c z • (U *ᵥ (cj c ∘ x)) = U *ᵥ (cj c ∘ (z • x)) := by
    intro z x
    rw [← mulVec_smul]
    congr 1
    ext i
    simp
  have h2 : ∀ x y : Fin n → ℂ, U *ᵥ (cj c ∘ x) + U *ᵥ (cj c ∘ y) = U *ᵥ (cj c ∘ (x + y)) := by
    intro x y
    rw [← mulVec_add]
    congr 1
    ext i
    simp
  rw [smul_comm (cj c μ), smul_comm (cj c μ)⁻¹, ← smul_add, ← smul_add, h1, ← map_inv₀, h1, h2, h2, hψ]
  ext i
  simp [mulVec, dotProduct]

theorem dot_cj (hU : Uᴴ * U = 1) (c : Bool) (x y : Fin n → ℂ) : star (U *ᵥ (cj c ∘ x)) ⬝ᵥ (U *ᵥ (cj c ∘ y)) = cj c (star x ⬝ᵥ y) := by
  rw [star_mulVec, ← dotProduct_mulVec, mulVec_mulVec, hU, one_mulVec, dotProduct, dotProduct, map_sum]
  refine Finset.sum_congr rfl fun i _ => ?_
  rw [map_mul, Pi.star_apply, Pi.star_apply, cj_star]
  rfl

theorem Related.vel (hr : Related U c fl h hop h' hop') (μ : ℂ) (x : Fin n → ℂ) :
    velMu hop' (cj c μ) *ᵥ (U *ᵥ (cj c ∘ x)) = (if fl ≠ c then -1 else 1 : ℂ) • (U *ᵥ (cj c ∘ (velMu hop μ *ᵥ x))) := by
  have hvel : velMu hop' (cj c μ) * U = (if fl ≠ c then -1 else 1 : ℂ) • (U * (velMu hop μ).map (cj c)) := by
    have e1 : velMu hop' (cj c μ) = (-I * cj c μ) • hop' + ((-I * cj c μ) • hop')ᴴ := rfl
    have e2 : velMu hop μ = (-I * μ) • hop + ((-I * μ) • hop)ᴴ := rfl
    have e3 : (velMu hop μ).map (cj c) = cj c (-I * μ) • hop.map (cj c) + cj c (star (-I * μ)) • hopᴴ.map (cj c) := by
      rw [e2, conjTranspose_smul]
      ext i j
      simp [Matrix.add_apply, Matrix.smul_apply]
    rw [e1, e3, conjTranspose_smul, Matrix.add_mul, Matrix.smul_mul, Matrix.smul_mul, hr.hop, hr.hopH, Matrix.mul_add, Matrix.mul_smul, Matrix.mul_smul, smul_add, smul_smul,
      smul_smul, smul_smul, smul_smul]
    congr 2
    · rw [map_mul, map_neg, cj_I]
      cases fl <;> cases c <;> simp
    · rw [star_mul, star_mul, map_mul, cj_star, cj_star, map_neg, cj_I]
      cases fl <;> cases c <;> simp
  rw [mulVec_mulVec, hvel, smul_mulVec, ← mulVec_mulVec, cj_mulVec]

/-- The relation in the other direction. -/
theorem Related.symm (hr : Related U c fl h hop h' hop') : Related (Uᴴ.map (cj c)) c fl h' hop' h hop := by
  have cc : ∀ {A B : Type} (M : Matrix A B ℂ), (M.map (cj c)).map (cj c) = M := by
    intro A B M
    ext i j
    simp [cj_cj]
  have one : ∀ {A : Type} [DecidableEq A], (1 : Matrix A A ℂ).map (cj c) = 1 := by
    intro A _
    rw [Matrix.map_one _ (map_zero _) (map_one _)]
  have key : ∀ (a : Matrix (Fin n) (Fin n) ℂ) (a' : Matrix (Fin n') (Fin n') ℂ), a' * U = (if fl then -1 else 1 : ℂ) • (U * a.map (cj c)) →
      a * Uᴴ.map (cj c) = (if fl then -1 else 1 : ℂ) • (Uᴴ.map (cj c) * a'.map (cj c)) := by
    intro a a' ha
    have h1 := congrArg (fun M => Uᴴ * M * Uᴴ) ha
    simp only [Matrix.mul_smul, Matrix.smul_mul] at h1
    rw [Matrix.mul_assoc, Matrix.mul_assoc, hr.right, Matrix.mul_one, ← Matrix.mul_assoc Uᴴ U, hr.left, Matrix.one_mul] at h1
    have h2 := congrArg (fun M => M.map (cj c)) h1
    have h3 : ∀ M : Matrix (Fin n) (Fin n') ℂ, ((if fl then -1 else 1 : ℂ) • M).map (cj c) = (if fl then -1 else 1 : ℂ) • M.map (cj c) := by
      intro M
      ext i j
      cases fl <;> simp
    simp only [h3, cj_mul, cc] at h2
    rw [h2, smul_smul]
    cases fl <;> simp
  refine ⟨?_, ?_, key _ _ hr.cell, key _ _ hr.hop⟩
  · rw [cj_conjTranspose, conjTranspose_conjTranspose, ← cj_mul, hr.right, one]
  · rw [cj_conjTranspose, conjTranspose_conjTranspose, ← cj_mul, hr.left, one]

/-- The modes of a related block satisfy the specification. -/
theorem LeadSpec.transform {wf : Matrix (Fin n) N ℂ} {mom vel : N → ℝ} {X Y : Matrix R (N ⊕ Q) ℂ} {v : Matrix (Fin n) R ℂ} {s : N → ℂ}
    (hs : LeadSpec h hop wf mom vel X Y v s) (hr : Related U c fl h hop h' hop') :
    LeadSpec h' hop' (U * wf.map (cj c)) (fun i => (if c then -1 else 1) * mom i) (fun i => (if fl ≠ c then -1 else 1) * vel i)
      ((if fl then -1 else 1 : ℂ) • X.map (cj c)) (Y.map (cj c)) (U * v.map (cj c)) (fun i => (if fl then -1 else 1) * s i) := by
  have hcol : ∀ i, (U * wf.map (cj c)).col i = U *ᵥ (cj c ∘ wf.col i) := by
    intro i
    ext x
    rfl
  have habs : ∀ i, |(if fl ≠ c then -1 else 1 : ℝ) * vel i| = |vel i| := by
    intro i
    split <;> simp
  have hexp : ∀ i j, cexp (-(I * (((if c then -1 else 1 : ℝ) * mom i : ℝ) : ℂ))) = cexp (-(I * (((if c then -1 else 1 : ℝ) * mom j : ℝ) : ℂ))) →
      cexp (-(I * mom i)) = cexp (-(I * mom j)) := by
    intro i j hij
    rw [cexp_cj, cexp_cj] at hij
    exact (cj c).injective hij
  refine ⟨hs.number, ?_, ?_, ?_, ?_, ?_, ?_, ?_, ?_, ?_, ?_⟩
  · intro i
    have := hs.nonzero i
    split <;> simp [this]
  · intro i
    have := hs.range i
    split
    · rw [neg_one_mul, abs_neg]; exact this
    · rw [one_mul]; exact this
  · intro i
    rw [cexp_cj, hcol]
    exact hr.bloch (Complex.exp_ne_zero _) (hs.bloch i)
  · intro i j hij
    rw [hcol, hcol, dot_cj hr.left, hs.orthogonal i j (hexp i j hij), habs]
    split
    · rw [cj_ofReal]
    · rw [map_zero]
  · intro i j hij
    rw [hcol, hcol, velK_eq, cexp_cj, hr.vel, dotProduct_smul, dot_cj hr.left, ← velK_eq, hs.velocity i j (hexp i j hij), habs]
    by_cases h1 : i = j
    · rw [if_pos h1, if_pos h1, cj_ofReal, smul_eq_mul]
      split
      · push_cast; ring
      · push_cast; ring
    · rw [if_neg h1, if_neg h1, map_zero, smul_zero]
  · intro k ψ hψ
    have h1 := hr.symm.bloch (Complex.exp_ne_zero _) hψ
    rw [← cexp_cj] at h1
    obtain ⟨a, h2, h3⟩ := hs.complete _ _ h1
    refine ⟨cj c ∘ a, ?_, ?_⟩
    · intro i hi
      have : a i = 0 := by
        apply h2
        intro h4
        apply hi
        rw [cexp_cj, h4, cexp_cj, cj_cj]
      rw [Function.comp_apply, this, map_zero]
    · rw [← mulVec_mulVec, cj_mulVec, ← h3, ← cj_mulVec]
      have h4 : (Uᴴ.map (cj c)).map (cj c) = Uᴴ := by
        ext i j
        simp [cj_cj]
      have h5 : cj c ∘ cj c ∘ ψ = ψ := by
        ext i
        simp [cj_cj]
      rw [h4, h5, mulVec_mulVec, hr.right, one_mulVec]
  · intro i
    rcases hs.sign i with h1 | h1 <;> rw [h1] <;> cases fl <;> simp
  · obtain ⟨u, h1, h2, h3, Φ, E, h4, h5, h6, h7⟩ := hs.solves
    have hsg : ∀ (σ : ℂ), σ = (if fl then -1 else 1 : ℂ) → σ * σ = 1 ∧ star σ = σ := by
      intro σ hσ
      rw [hσ]
      cases fl <;> simp
    generalize hσ : (if fl then -1 else 1 : ℂ) = σ at *
    obtain ⟨hσ1, hσ2⟩ := hsg σ rfl
    have hX2 : (σ • X.map (cj c)).toCols₂ = σ • (X.toCols₂).map (cj c) := rfl
    have hY2 : (Y.map (cj c)).toCols₂ = (Y.toCols₂).map (cj c) := rfl
    have hcell := hr.cell
    have hhop := hr.hop
    rw [hσ] at hcell hhop
    have Epow : ∀ t, (E.map (cj c)) ^ t = (E ^ t).map (cj c) := by
      intro t
      induction t with
      | zero => rw [pow_zero, pow_zero, Matrix.map_one _ (map_zero _) (map_one _)]
      | succ t ih => rw [pow_succ, pow_succ, ih, cj_mul]
    refine ⟨σ • (U * u.map (cj c)), ?_, ?_, ?_, σ • (U * Φ.map (cj c)), E.map (cj c), ?_, ?_, ?_, ?_⟩
    · have : hop' = σ • (U * hop.map (cj c)) * Uᴴ := by rw [← hhop, Matrix.mul_assoc, hr.right, Matrix.mul_one]
      rw [this, h1, cj_mul, conjTranspose_mul, cj_conjTranspose, Matrix.smul_mul, Matrix.smul_mul]
      simp only [Matrix.mul_assoc]
    · intro x hx
      have h8 : U *ᵥ (u.map (cj c) *ᵥ x) = 0 := by
        have := congrArg (σ • ·) hx
        simp only [smul_mulVec, smul_smul, hσ1, one_smul, smul_zero, ← mulVec_mulVec] at this
        exact this
      have h9 : u.map (cj c) *ᵥ x = 0 := by
        have := congrArg (Uᴴ *ᵥ ·) h8
        simp only [mulVec_mulVec, mulVec_zero] at this
        rw [← Matrix.mul_assoc, hr.left, Matrix.one_mul] at this
        exact this
      have h10 : u *ᵥ (cj c ∘ x) = 0 := by
        have e : u = (u.map (cj c)).map (cj c) := by ext i j; simp [cj_cj]
        rw [e, cj_mulVec, h9]
        ext i
        simp
      have h11 := h2 _ h10
      ext i
      have := congrFun h11 i
      rw [Function.comp_apply, Pi.zero_apply, map_eq_zero] at this
      exact this
    · intro i
      obtain ⟨a, b⟩ := h3 i
      have hcj : ∀ z, (if z = (1 : ℂ) ∨ z = -1 then cj c z else z) = z := by
        intro z
        split
        · rename_i hz
          rcases hz with hz | hz <;> rw [hz] <;> simp
        · rfl
      have hsi : cj c (s i) = s i := by
        have := hcj (s i)
        rw [if_pos (hs.sign i)] at this
        exact this
      have hv : ∀ M : Matrix (Fin n) R ℂ, (U * M.map (cj c))ᴴ *ᵥ (U * wf.map (cj c)).col i = cj c ∘ (Mᴴ *ᵥ wf.col i) := by
        intro M
        rw [hcol, conjTranspose_mul, mulVec_mulVec, Matrix.mul_assoc, hr.left, Matrix.mul_one, cj_conjTranspose, cj_mulVec]
      constructor
      · rw [hv]
        ext x
        have := congrArg (cj c) (congrFun a x)
        change σ * cj c (X x (.inl i)) = _
        rw [show cj c (X x (.inl i)) = _ from this]
        simp only [Pi.smul_apply, smul_eq_mul, map_mul, hsi, Function.comp_apply]
        ring
      · rw [conjTranspose_smul, smul_mulVec, hv, hσ2, cexp_cj]
        ext x
        have := congrArg (cj c) (congrFun b x)
        simp only [Pi.smul_apply, smul_eq_mul, map_mul, hsi] at this
        change cj c _ * cj c (Y x (.inl i)) = _
        rw [show cj c _ * cj c (Y x (.inl i)) = _ from this]
        simp only [Pi.smul_apply, smul_eq_mul, Function.comp_apply]
        linear_combination (-(s i * cj c ((uᴴ *ᵥ wf.col i) x))) * hσ1
    · intro a b
      simp only [Epow]
      exact cj_tendsto c (h4 a b)
    · rw [hX2, Matrix.smul_mul, ← cj_mul, h5, cj_mul, Matrix.mul_smul, conjTranspose_mul, Matrix.mul_assoc, ← Matrix.mul_assoc Uᴴ, hr.left, Matrix.one_mul, cj_conjTranspose]
    · rw [hY2, h6, cj_mul, conjTranspose_smul, Matrix.smul_mul, Matrix.mul_smul, smul_smul, hσ2, hσ1, one_smul, conjTranspose_mul, Matrix.mul_assoc, ← Matrix.mul_assoc Uᴴ, hr.left,
        Matrix.one_mul, cj_conjTranspose]
    · rw [hX2, hY2, Matrix.mul_smul, ← Matrix.mul_assoc, hcell, ← cj_mul, Matrix.smul_mul, Matrix.smul_mul, Matrix.mul_smul, smul_smul, smul_smul, hσ1, one_smul, one_smul,
        Matrix.mul_assoc, Matrix.mul_assoc, Matrix.mul_assoc, ← cj_mul, ← cj_mul, ← cj_mul, ← Matrix.mul_add, ← Matrix.mul_add]
      have e : ∀ A B : Matrix (Fin n) Q ℂ, A.map (cj c) + B.map (cj c) = (A + B).map (cj c) := by
        intro A B
        ext i j
        simp
      rw [e, e, h7]
      ext i j
      simp [Matrix.mul_apply]
  · have h1 := congrArg (fun M => M.map (cj c)) hs.current
    ext a b
    have h2 := congrFun (congrFun h1 a) b
    simp only [map_apply, Matrix.smul_apply, Matrix.sub_apply, smul_eq_mul, map_mul, map_sub] at h2
    have e1 : (((if fl then -1 else 1 : ℂ) • X.map (cj c))ᴴ * Y.map (cj c)) a b = (if fl then -1 else 1 : ℂ) * cj c ((Xᴴ * Y) a b) := by
      rw [conjTranspose_smul, Matrix.smul_mul, cj_conjTranspose, ← cj_mul, Matrix.smul_apply, map_apply, smul_eq_mul]
      cases fl <;> simp
    have e2 : ((Y.map (cj c))ᴴ * ((if fl then -1 else 1 : ℂ) • X.map (cj c))) a b = (if fl then -1 else 1 : ℂ) * cj c ((Yᴴ * X) a b) := by
      rw [Matrix.mul_smul, cj_conjTranspose, ← cj_mul, Matrix.smul_apply, map_apply, smul_eq_mul]
    rw [Matrix.smul_apply, Matrix.sub_apply, e1, e2, smul_eq_mul]
    rw [cj_I] at h2
    have h3 : I * ((if fl then -1 else 1 : ℂ) * cj c ((Xᴴ * Y) a b) - (if fl then -1 else 1 : ℂ) * cj c ((Yᴴ * X) a b)) =
        (if fl ≠ c then -1 else 1 : ℂ) * cj c (diagonal (Sum.elim (fun i => ((vel i / |vel i| : ℝ) : ℂ)) fun _ => 0) a b) := by
      rw [← h2]
      cases fl <;> cases c <;> simp <;> ring
    rw [h3, diagonal_apply, diagonal_apply]
    by_cases hab : a = b
    · rw [if_pos hab, if_pos hab]
      rcases a with a | a
      · simp only [Sum.elim_inl, cj_ofReal, habs]
        split
        · push_cast; ring
        · push_cast; ring
      · simp
    · rw [if_neg hab, if_neg hab, map_zero, mul_zero]
  · intro a h1 h2
    have e : ∀ Z : Matrix R Q ℂ, Z.map (cj c) *ᵥ a = 0 → Z *ᵥ (cj c ∘ a) = 0 := by
      intro Z hZ
      have e : Z = (Z.map (cj c)).map (cj c) := by ext i j; simp [cj_cj]
      rw [e, cj_mulVec, hZ]
      ext i
      simp
    have h1' : X.toCols₂.map (cj c) *ᵥ a = 0 := by
      have h3 : ((if fl then -1 else 1 : ℂ) • X.map (cj c)).toCols₂ = (if fl then -1 else 1 : ℂ) • (X.toCols₂).map (cj c) := rfl
      rw [h3, smul_mulVec] at h1
      cases fl
      · simpa using h1
      · simpa using h1
    have h4 := hs.indep _ (e _ h1') (e _ h2)
    ext i
    have := congrFun h4 i
    rw [Function.comp_apply, Pi.zero_apply, map_eq_zero] at this
    exact this

end Transform

end Kwant.Leads
