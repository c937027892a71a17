import Verif.Leads.ModesProps

/-!
C114: the modes of the blocks of a block-diagonal lead are together the modes of the lead.
-/

set_option linter.unusedSectionVars false

namespace Kwant.Leads
open Matrix Complex Filter

variable {n : ℕ}

/-- The projectors form a unitary matrix and block-diagonalize the Hamiltonian of the lead. -/
structure Projectors.Ok (P : Projectors n) (h hop : Matrix (Fin n) (Fin n) ℂ) : Prop where
  orthonormal : ∀ b, (P.proj b)ᴴ * P.proj b = 1
  orthogonal : ∀ a b, a ≠ b → (P.proj a)ᴴ * P.proj b = 0
  complete : ∑ b, P.proj b * (P.proj b)ᴴ = 1
  cell : ∀ a b, a ≠ b → P.blk h a b = 0
  hop : ∀ a b, a ≠ b → P.blk hop a b = 0

variable {P : Projectors n} {h hop : Matrix (Fin n) (Fin n) ℂ}

theorem Projectors.mul_proj (hc : ∑ b, P.proj b * (P.proj b)ᴴ = 1) {a : Matrix (Fin n) (Fin n) ℂ} (ha : ∀ x y, x ≠ y → P.blk a x y = 0) (b : Fin P.nb) :
    a * P.proj b = P.proj b * P.blk a b b := by
  have h1 : a * P.proj b = ∑ x, P.proj x * P.blk a x b := by
    conv_lhs => rw [← Matrix.one_mul a, ← hc, Matrix.sum_mul, Matrix.sum_mul]
    refine Finset.sum_congr rfl fun x _ => ?_
    rw [Projectors.blk]
    simp only [Matrix.mul_assoc]
  rw [h1, Finset.sum_eq_single b]
  · intro x _ hx
    rw [ha x b hx, Matrix.mul_zero]
  · intro hb
    exact absurd (Finset.mem_univ _) hb

theorem Projectors.proj_mul (hc : ∑ b, P.proj b * (P.proj b)ᴴ = 1) {a : Matrix (Fin n) (Fin n) ℂ} (ha : ∀ x y, x ≠ y → P.blk a x y = 0) (b : Fin P.nb) :
    (P.proj b)ᴴ * a = P.blk a b b * (P.proj b)ᴴ := by
  have h1 : (P.proj b)ᴴ * a = ∑ x, P.blk a b x * (P.proj x)ᴴ := by
    conv_lhs => rw [← Matrix.mul_one a, ← hc, Matrix.mul_sum, Matrix.mul_sum]
    refine Finset.sum_congr rfl fun x _ => ?_
    rw [Projectors.blk]
    simp only [Matrix.mul_assoc]
  rw [h1, Finset.sum_eq_single b]
  · intro x _ hx
    rw [ha b x (Ne.symm hx), Matrix.zero_mul]
  · intro hb
    exact absurd (Finset.mem_univ _) hb

theorem Projectors.blk_conjTranspose (a : Matrix (Fin n) (Fin n) ℂ) (x y : Fin P.nb) : P.blk aᴴ x y = (P.blk a y x)ᴴ := by
  rw [Projectors.blk, Projectors.blk, conjTranspose_mul, conjTranspose_mul, conjTranspose_conjTranspose, Matrix.mul_assoc]

theorem Projectors.blk_diag (hc : ∑ b, P.proj b * (P.proj b)ᴴ = 1) {a : Matrix (Fin n) (Fin n) ℂ} (ha : ∀ x y, x ≠ y → P.blk a x y = 0) :
    a = ∑ b, P.proj b * P.blk a b b * (P.proj b)ᴴ := by
  conv_lhs => rw [← Matrix.mul_one a, ← hc, Matrix.mul_sum]
  refine Finset.sum_congr rfl fun b _ => ?_
  rw [← Matrix.mul_assoc, Projectors.mul_proj hc ha]

section Join
variable {N Q R : Fin P.nb → Type} [∀ b, Fintype (N b)] [∀ b, Fintype (Q b)] [∀ b, Fintype (R b)] [∀ b, DecidableEq (N b)] [∀ b, DecidableEq (Q b)] [∀ b, DecidableEq (R b)]

/-- The matrices of all blocks, side by side, in the basis of the orbitals. -/
def hcat {K : Fin P.nb → Type} (M : (b : Fin P.nb) → Matrix (Fin (P.dim b)) (K b) ℂ) : Matrix (Fin n) (Σ b, K b) ℂ := of fun x c => (P.proj c.1 * M c.1) x c.2

theorem hcat_mulVec {K : Fin P.nb → Type} [∀ b, Fintype (K b)] (M : (b : Fin P.nb) → Matrix (Fin (P.dim b)) (K b) ℂ) (c : (Σ b, K b) → ℂ) :
    hcat M *ᵥ c = ∑ b, P.proj b *ᵥ (M b *ᵥ fun i => c ⟨b, i⟩) := by
  ext x
  rw [mulVec, dotProduct, Fintype.sum_sigma, Finset.sum_apply]
  refine Finset.sum_congr rfl fun b _ => ?_
  rw [mulVec_mulVec]
  rfl

theorem proj_hcat (hP : P.Ok h hop) {K : Fin P.nb → Type} (M : (b : Fin P.nb) → Matrix (Fin (P.dim b)) (K b) ℂ) (b : Fin P.nb) (c : Σ b, K b) (x : Fin (P.dim b)) :
    ((P.proj b)ᴴ * hcat M) x c = if h : c.1 = b then M b x (h ▸ c.2) else 0 := by
  have h1 : ((P.proj b)ᴴ * hcat M) x c = ((P.proj b)ᴴ * (P.proj c.1 * M c.1)) x c.2 := rfl
  rw [h1, ← Matrix.mul_assoc]
  obtain ⟨b', c⟩ := c
  by_cases hb : b' = b
  · subst hb
    rw [dif_pos rfl, hP.orthonormal, Matrix.one_mul]
  · rw [dif_neg hb, hP.orthogonal b b' (Ne.symm hb), Matrix.zero_mul, Matrix.zero_apply]

theorem hcat_col {K : Fin P.nb → Type} (M : (b : Fin P.nb) → Matrix (Fin (P.dim b)) (K b) ℂ) (c : Σ b, K b) : (hcat M).col c = P.proj c.1 *ᵥ (M c.1).col c.2 := rfl

theorem proj_mulVec (hP : P.Ok h hop) (b : Fin P.nb) (x : Fin (P.dim b) → ℂ) (b' : Fin P.nb) :
    (P.proj b')ᴴ *ᵥ (P.proj b *ᵥ x) = if h : b = b' then fun i => x (h ▸ i) else 0 := by
  rw [mulVec_mulVec]
  by_cases hb : b = b'
  · subst hb
    rw [dif_pos rfl, hP.orthonormal, one_mulVec]
  · rw [dif_neg hb, hP.orthogonal b' b (Ne.symm hb), zero_mulVec]

theorem hcatH_hcat (hP : P.Ok h hop) {K K' : Fin P.nb → Type} (M : (b : Fin P.nb) → Matrix (Fin (P.dim b)) (K b) ℂ)
    (M' : (b : Fin P.nb) → Matrix (Fin (P.dim b)) (K' b) ℂ) : (hcat M)ᴴ * hcat M' = blockDiagonal' fun b => (M b)ᴴ * M' b := by
  ext c c'
  obtain ⟨b, c⟩ := c
  obtain ⟨b', c'⟩ := c'
  have h1 : ((hcat M)ᴴ * hcat M') ⟨b, c⟩ ⟨b', c'⟩ = ((P.proj b * M b)ᴴ * (P.proj b' * M' b')) c c' := rfl
  rw [h1, conjTranspose_mul, Matrix.mul_assoc, ← Matrix.mul_assoc (P.proj b)ᴴ]
  by_cases hb : b = b'
  · subst hb
    rw [hP.orthonormal, Matrix.one_mul, blockDiagonal'_apply_eq]
  · rw [hP.orthogonal b b' hb, Matrix.zero_mul, Matrix.mul_zero, Matrix.zero_apply, blockDiagonal'_apply_ne _ _ _ hb]

theorem mul_hcat {a : Matrix (Fin n) (Fin n) ℂ} (hc : ∑ b, P.proj b * (P.proj b)ᴴ = 1) (ha : ∀ x y, x ≠ y → P.blk a x y = 0) {K : Fin P.nb → Type}
    (M : (b : Fin P.nb) → Matrix (Fin (P.dim b)) (K b) ℂ) : a * hcat M = hcat fun b => P.blk a b b * M b := by
  ext x c
  have h1 : (a * hcat M) x c = (a * (P.proj c.1 * M c.1)) x c.2 := rfl
  rw [h1, ← Matrix.mul_assoc, Projectors.mul_proj hc ha, Matrix.mul_assoc]
  rfl

theorem hcat_blockDiagonal {K K' : Fin P.nb → Type} [∀ b, Fintype (K b)] (M : (b : Fin P.nb) → Matrix (Fin (P.dim b)) (K b) ℂ) (D : (b : Fin P.nb) → Matrix (K b) (K' b) ℂ) :
    hcat M * blockDiagonal' D = hcat fun b => M b * D b := by
  ext x c
  obtain ⟨b', c⟩ := c
  rw [Matrix.mul_apply, Fintype.sum_sigma, Finset.sum_eq_single b']
  · have h1 : (hcat fun b => M b * D b) x ⟨b', c⟩ = (P.proj b' * (M b' * D b')) x c := rfl
    rw [h1, ← Matrix.mul_assoc, Matrix.mul_apply]
    refine Finset.sum_congr rfl fun i _ => ?_
    rw [blockDiagonal'_apply_eq]
    rfl
  · intro b _ hb
    refine Finset.sum_eq_zero fun i _ => ?_
    rw [blockDiagonal'_apply_ne _ _ _ hb, mul_zero]
  · intro hb
    exact absurd (Finset.mem_univ _) hb

theorem hcat_hcatH {K : Fin P.nb → Type} [∀ b, Fintype (K b)] (M M' : (b : Fin P.nb) → Matrix (Fin (P.dim b)) (K b) ℂ) :
    hcat M * (hcat M')ᴴ = ∑ b, P.proj b * (M b * (M' b)ᴴ) * (P.proj b)ᴴ := by
  ext x y
  rw [Matrix.mul_apply, Fintype.sum_sigma, Matrix.sum_apply]
  refine Finset.sum_congr rfl fun b _ => ?_
  have h1 : P.proj b * (M b * (M' b)ᴴ) * (P.proj b)ᴴ = (P.proj b * M b) * (P.proj b * M' b)ᴴ := by
    rw [conjTranspose_mul]
    simp only [Matrix.mul_assoc]
  rw [h1, Matrix.mul_apply]
  rfl

/-- The columns of the joined arrays, block by block. -/
def colEquiv (N Q : Fin P.nb → Type) : (Σ b, N b) ⊕ (Σ b, Q b) ≃ Σ b, (N b ⊕ Q b) where
  toFun := Sum.elim (fun c => ⟨c.1, .inl c.2⟩) (fun c => ⟨c.1, .inr c.2⟩)
  invFun c := match c with
    | ⟨b, .inl i⟩ => .inl ⟨b, i⟩
    | ⟨b, .inr i⟩ => .inr ⟨b, i⟩
  left_inv := by rintro (⟨b, i⟩ | ⟨b, i⟩) <;> rfl
  right_inv := by rintro ⟨b, i | i⟩ <;> rfl

/-- The stabilized modes of all blocks. -/
def joinX (X : (b : Fin P.nb) → Matrix (R b) (N b ⊕ Q b) ℂ) : Matrix (Σ b, R b) ((Σ b, N b) ⊕ Σ b, Q b) ℂ := (blockDiagonal' X).submatrix id (colEquiv N Q)

theorem joinX_cols (X : (b : Fin P.nb) → Matrix (R b) (N b ⊕ Q b) ℂ) : (joinX X).toCols₂ = blockDiagonal' fun b => (X b).toCols₂ := by
  ext ⟨b, r⟩ ⟨b', c⟩
  by_cases hb : b = b'
  · subst hb
    change blockDiagonal' X ⟨b, r⟩ ⟨b, .inr c⟩ = _
    rw [blockDiagonal'_apply_eq, blockDiagonal'_apply_eq]
    rfl
  · change blockDiagonal' X ⟨b, r⟩ ⟨b', .inr c⟩ = _
    rw [blockDiagonal'_apply_ne _ _ _ hb, blockDiagonal'_apply_ne _ _ _ hb]

theorem blockDiagonal_mulVec {K K' : Fin P.nb → Type} [∀ b, Fintype (K b)] (M : (b : Fin P.nb) → Matrix (K' b) (K b) ℂ) (c : (Σ b, K b) → ℂ) (b : Fin P.nb) (i : K' b) :
    (blockDiagonal' M *ᵥ c) ⟨b, i⟩ = (M b *ᵥ fun j => c ⟨b, j⟩) i := by
  rw [mulVec, dotProduct, Fintype.sum_sigma, Finset.sum_eq_single b]
  · rw [mulVec, dotProduct]
    refine Finset.sum_congr rfl fun j _ => ?_
    rw [blockDiagonal'_apply_eq]
  · intro b' _ hb'
    refine Finset.sum_eq_zero fun j _ => ?_
    rw [blockDiagonal'_apply_ne _ _ _ (Ne.symm hb'), zero_mul]
  · intro hb
    exact absurd (Finset.mem_univ _) hb

/-- A solution in the lead is a solution in every block. -/
theorem isBloch_block (hP : P.Ok h hop) {μ : ℂ} (hμ : μ ≠ 0) {ψ : Fin n → ℂ} (hψ : IsBloch h hop μ ψ) (b : Fin P.nb) :
    IsBloch (P.blk h b b) (P.blk hop b b) μ ((P.proj b)ᴴ *ᵥ ψ) := by
  rw [isBloch_iff _ _ hμ] at hψ ⊢
  have hopH : ∀ x y, x ≠ y → P.blk hopᴴ x y = 0 := fun x y hxy => by rw [Projectors.blk_conjTranspose, hP.hop y x (Ne.symm hxy), conjTranspose_zero]
  rw [mulVec_mulVec, mulVec_mulVec, mulVec_mulVec, ← Projectors.blk_conjTranspose, ← Projectors.proj_mul hP.complete hP.cell, ← Projectors.proj_mul hP.complete hP.hop,
    ← Projectors.proj_mul hP.complete hopH, ← mulVec_mulVec, ← mulVec_mulVec, ← mulVec_mulVec]
  rw [← mulVec_smul (P.proj b)ᴴ, ← mulVec_smul (P.proj b)ᴴ, ← mulVec_add, ← mulVec_add, hψ, mulVec_zero]

theorem isBloch_proj (hP : P.Ok h hop) {μ : ℂ} (hμ : μ ≠ 0) (b : Fin P.nb) {ψ : Fin (P.dim b) → ℂ} (hψ : IsBloch (P.blk h b b) (P.blk hop b b) μ ψ) :
    IsBloch h hop μ (P.proj b *ᵥ ψ) := by
  rw [isBloch_iff _ _ hμ] at hψ ⊢
  have hopH : ∀ x y, x ≠ y → P.blk hopᴴ x y = 0 := fun x y hxy => by rw [Projectors.blk_conjTranspose, hP.hop y x (Ne.symm hxy), conjTranspose_zero]
  rw [mulVec_mulVec, mulVec_mulVec, mulVec_mulVec, Projectors.mul_proj hP.complete hP.cell, Projectors.mul_proj hP.complete hP.hop, Projectors.mul_proj hP.complete hopH,
    Projectors.blk_conjTranspose, ← mulVec_mulVec, ← mulVec_mulVec, ← mulVec_mulVec, ← mulVec_smul (P.proj b), ← mulVec_smul (P.proj b), ← mulVec_add, ← mulVec_add, hψ, mulVec_zero]

theorem velMu_proj (hP : P.Ok h hop) (μ : ℂ) (b : Fin P.nb) (x : Fin (P.dim b) → ℂ) : velMu hop μ *ᵥ (P.proj b *ᵥ x) = P.proj b *ᵥ (velMu (P.blk hop b b) μ *ᵥ x) := by
  have hopH : ∀ x y, x ≠ y → P.blk hopᴴ x y = 0 := fun x y hxy => by rw [Projectors.blk_conjTranspose, hP.hop y x (Ne.symm hxy), conjTranspose_zero]
  have e1 : ∀ {k : ℕ} (a : Matrix (Fin k) (Fin k) ℂ), velMu a μ = (-I * μ) • a + (star (-I * μ)) • aᴴ := by
    intro k a
    rw [← conjTranspose_smul]
    rfl
  rw [e1, e1, mulVec_mulVec, mulVec_mulVec, Matrix.add_mul, Matrix.smul_mul, Matrix.smul_mul, Projectors.mul_proj hP.complete hP.hop, Projectors.mul_proj hP.complete hopH,
    Projectors.blk_conjTranspose, Matrix.mul_add, Matrix.mul_smul, Matrix.mul_smul]

theorem dot_proj (hP : P.Ok h hop) (c c' : Σ b, Fin (P.dim b) → ℂ) : star (P.proj c.1 *ᵥ c.2) ⬝ᵥ (P.proj c'.1 *ᵥ c'.2) =
    if h : c.1 = c'.1 then star c.2 ⬝ᵥ (h ▸ c'.2) else 0 := by
  obtain ⟨b, x⟩ := c
  obtain ⟨b', x'⟩ := c'
  dsimp only
  rw [star_mulVec, ← dotProduct_mulVec, mulVec_mulVec]
  by_cases hb : b = b'
  · subst hb
    rw [dif_pos rfl, hP.orthonormal, one_mulVec]
  · rw [dif_neg hb, hP.orthogonal b b' hb, zero_mulVec, dotProduct_zero]

/-- The modes of all blocks are the modes of the lead. -/
theorem LeadSpec.join (hP : P.Ok h hop) {wf : (b : Fin P.nb) → Matrix (Fin (P.dim b)) (N b) ℂ} {mom vel : (b : Fin P.nb) → N b → ℝ}
    {X Y : (b : Fin P.nb) → Matrix (R b) (N b ⊕ Q b) ℂ} {v : (b : Fin P.nb) → Matrix (Fin (P.dim b)) (R b) ℂ} {s : (b : Fin P.nb) → N b → ℂ}
    (hs : ∀ b, LeadSpec (P.blk h b b) (P.blk hop b b) (wf b) (mom b) (vel b) (X b) (Y b) (v b) (s b)) :
    LeadSpec h hop (hcat wf) (fun c : Σ b, N b => mom c.1 c.2) (fun c : Σ b, N b => vel c.1 c.2) (joinX X) (joinX Y) (hcat v) (fun c : Σ b, N b => s c.1 c.2) := by
  have eqs : ∀ {b : Fin P.nb} {i j : N b}, ((⟨b, i⟩ : Σ b, N b) = ⟨b, j⟩) ↔ i = j := by
    intro b i j
    simp
  refine ⟨?_, fun c => (hs c.1).nonzero c.2, fun c => (hs c.1).range c.2, fun c => isBloch_proj hP (Complex.exp_ne_zero _) c.1 ((hs c.1).bloch c.2), ?_, ?_, ?_,
    fun c => (hs c.1).sign c.2, ?_, ?_, ?_⟩
  · rw [Fintype.card_sigma, Fintype.card_sigma, Fintype.card_sigma, Finset.mul_sum, Finset.mul_sum, ← Finset.sum_add_distrib]
    exact Finset.sum_congr rfl fun b _ => (hs b).number
  · rintro ⟨b, i⟩ ⟨b', j⟩ hij
    rw [hcat_col, hcat_col]
    have := dot_proj hP ⟨b, (wf b).col i⟩ ⟨b', (wf b').col j⟩
    dsimp only at this ⊢
    rw [this]
    by_cases hb : b = b'
    · subst hb
      rw [dif_pos rfl]
      dsimp only
      rw [(hs b).orthogonal i j hij]
      simp only [eqs]
    · rw [dif_neg hb, if_neg]
      intro h1
      exact hb (congrArg Sigma.fst h1)
  · rintro ⟨b, i⟩ ⟨b', j⟩ hij
    rw [hcat_col, hcat_col]
    have := dot_proj hP ⟨b, (wf b).col i⟩ ⟨b', velMu (P.blk hop b' b') (cexp (-(I * mom b i))) *ᵥ (wf b').col j⟩
    dsimp only at this ⊢
    rw [velK_eq, velMu_proj hP, this]
    by_cases hb : b = b'
    · subst hb
      rw [dif_pos rfl]
      dsimp only
      rw [← velK_eq, (hs b).velocity i j hij]
      simp only [eqs]
    · rw [dif_neg hb, if_neg]
      intro h1
      exact hb (congrArg Sigma.fst h1)
  · intro k ψ hψ
    have h1 := fun b => (hs b).complete k _ (isBloch_block hP (Complex.exp_ne_zero _) hψ b)
    choose c hc1 hc2 using h1
    refine ⟨fun i => c i.1 i.2, fun i hi => hc1 i.1 i.2 hi, ?_⟩
    rw [hcat_mulVec]
    simp only [← hc2]
    conv_lhs => rw [← one_mulVec ψ, ← hP.complete, sum_mulVec]
    refine Finset.sum_congr rfl fun b _ => ?_
    rw [mulVec_mulVec]
  · have h1 := fun b => (hs b).solves
    choose u h1 h2 h3 Φ E h4 h5 h6 h7 using h1
    refine ⟨hcat u, ?_, ?_, ?_, hcat Φ, blockDiagonal' E, ?_, ?_, ?_, ?_⟩
    · rw [hcat_hcatH]
      simp only [← h1]
      exact Projectors.blk_diag hP.complete hP.hop
    · intro x hx
      ext ⟨b, i⟩
      rw [hcat_mulVec] at hx
      have h8 : u b *ᵥ (fun i => x ⟨b, i⟩) = 0 := by
        have := congrArg ((P.proj b)ᴴ *ᵥ ·) hx
        simp only [mulVec_sum, mulVec_zero] at this
        rw [Finset.sum_eq_single b] at this
        · rw [mulVec_mulVec, hP.orthonormal, one_mulVec] at this
          exact this
        · intro b' _ hb'
          rw [mulVec_mulVec, hP.orthogonal b b' (Ne.symm hb'), zero_mulVec]
        · intro hb
          exact absurd (Finset.mem_univ _) hb
      exact congrFun (h2 b _ h8) i
    · rintro ⟨b, i⟩
      have key : ∀ M : (b : Fin P.nb) → Matrix (Fin (P.dim b)) (R b) ℂ, ∀ b' r, ((hcat M)ᴴ *ᵥ (hcat wf).col ⟨b, i⟩) ⟨b', r⟩ =
          blockDiagonal' (fun b => (M b)ᴴ * wf b) ⟨b', r⟩ ⟨b, i⟩ := by
        intro M b' r
        rw [← hcatH_hcat hP]
        rfl
      obtain ⟨a1, a2⟩ := h3 b i
      constructor
      · ext ⟨b', r⟩
        rw [Pi.smul_apply, key]
        change blockDiagonal' X ⟨b', r⟩ ⟨b, .inl i⟩ = _
        by_cases hb : b' = b
        · subst hb
          rw [blockDiagonal'_apply_eq, blockDiagonal'_apply_eq]
          exact congrFun a1 r
        · rw [blockDiagonal'_apply_ne _ _ _ hb, blockDiagonal'_apply_ne _ _ _ hb, smul_zero]
      · ext ⟨b', r⟩
        rw [Pi.smul_apply, Pi.smul_apply, key]
        change _ • blockDiagonal' Y ⟨b', r⟩ ⟨b, .inl i⟩ = _
        by_cases hb : b' = b
        · subst hb
          rw [blockDiagonal'_apply_eq, blockDiagonal'_apply_eq]
          exact congrFun a2 r
        · rw [blockDiagonal'_apply_ne _ _ _ hb, blockDiagonal'_apply_ne _ _ _ hb, smul_zero, smul_zero]
    · rintro ⟨b, a⟩ ⟨b', a'⟩
      have hpow : ∀ t, (blockDiagonal' E) ^ t = blockDiagonal' fun b => E b ^ t := by
        intro t
        have := (blockDiagonal'_pow E t).symm
        exact this
      simp only [hpow]
      by_cases hb : b = b'
      · subst hb
        simp only [blockDiagonal'_apply_eq]
        exact h4 b a a'
      · simp only [blockDiagonal'_apply_ne _ _ _ hb]
        exact tendsto_const_nhds
    · rw [joinX_cols, ← blockDiagonal'_mul, hcatH_hcat hP]
      simp only [h5]
    · rw [joinX_cols, hcatH_hcat hP]
      simp only [h6]
    · rw [joinX_cols, joinX_cols, ← blockDiagonal'_mul, hcat_blockDiagonal, hcat_blockDiagonal, mul_hcat hP.complete hP.cell]
      ext x c
      have := h7 c.1
      have h8 : P.proj c.1 * (P.blk h c.1 c.1 * Φ c.1) + P.proj c.1 * (v c.1 * ((Y c.1).toCols₂ * E c.1)) + P.proj c.1 * (u c.1 * (X c.1).toCols₂) = 0 := by
        rw [← Matrix.mul_add, ← Matrix.mul_add, this, Matrix.mul_zero]
      exact congrFun (congrFun h8 x) c.2
  · have hXY : ∀ A B : (b : Fin P.nb) → Matrix (R b) (N b ⊕ Q b) ℂ, (joinX A)ᴴ * joinX B = (blockDiagonal' fun b => (A b)ᴴ * B b).submatrix (colEquiv N Q) (colEquiv N Q) := by
      intro A B
      rw [joinX, joinX, conjTranspose_submatrix, blockDiagonal'_conjTranspose, blockDiagonal'_mul]
      rfl
    rw [hXY, hXY]
    have h1 : I • ((blockDiagonal' fun b => (X b)ᴴ * Y b) - blockDiagonal' fun b => (Y b)ᴴ * X b) =
        blockDiagonal' fun b => diagonal (Sum.elim (fun i => ((vel b i / |vel b i| : ℝ) : ℂ)) fun _ : Q b => 0) := by
      rw [← blockDiagonal'_sub, ← blockDiagonal'_smul]
      congr 1
      ext b : 1
      exact (hs b).current
    have h2 : I • ((blockDiagonal' fun b => (X b)ᴴ * Y b).submatrix (colEquiv N Q) (colEquiv N Q) - (blockDiagonal' fun b => (Y b)ᴴ * X b).submatrix (colEquiv N Q) (colEquiv N Q)) =
        (I • ((blockDiagonal' fun b => (X b)ᴴ * Y b) - blockDiagonal' fun b => (Y b)ᴴ * X b)).submatrix (colEquiv N Q) (colEquiv N Q) := rfl
    rw [h2, h1]
    ext a b
    rw [submatrix_apply, blockDiagonal'_diagonal, diagonal_apply, diagonal_apply]
    simp only [(colEquiv N Q).injective.eq_iff]
    split
    · rcases a with ⟨b, i⟩ | ⟨b, i⟩ <;> rfl
    · rfl
  · intro c h1 h2
    rw [joinX_cols] at h1 h2
    ext ⟨b, i⟩
    refine congrFun ((hs b).indep (fun j => c ⟨b, j⟩) ?_ ?_) i
    · ext r
      rw [← blockDiagonal_mulVec (fun b => (X b).toCols₂), h1]
      rfl
    · ext r
      rw [← blockDiagonal_mulVec (fun b => (Y b).toCols₂), h2]
      rfl

end Join

end Kwant.Leads
