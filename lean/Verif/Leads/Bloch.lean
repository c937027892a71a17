import Verif.Leads.Linsys

/-!
C108: the eigenproblem that `setup_linsys` (kwant/physics/leads.py l.204-391) sets up is the Bloch problem of the lead, whichever algorithm is chosen.
-/

set_option linter.unusedSectionVars false

namespace Kwant.Leads
open Matrix Complex

variable {n : ℕ}

/-! ### Specification -/

/-- The Schrödinger equation of the infinite lead: `h` is the Hamiltonian of a cell with the energy already subtracted, `hop` the hopping from a cell to the
next one. -/
def LeadEq (h hop : Matrix (Fin n) (Fin n) ℂ) (Ψ : ℤ → Fin n → ℂ) : Prop :=
  ∀ j, h *ᵥ Ψ j + hop *ᵥ Ψ (j - 1) + hopᴴ *ᵥ Ψ (j + 1) = 0

/-- `ψ` is the wave function in cell 0 of a solution that is multiplied by `1 / lmbdainv` from one cell to the next. -/
def IsBloch (h hop : Matrix (Fin n) (Fin n) ℂ) (lmbdainv : ℂ) (ψ : Fin n → ℂ) : Prop := LeadEq h hop fun j => (lmbdainv⁻¹ ^ j) • ψ

/-- `x` solves the eigenproblem of `linsys` with the eigenvalue `μ`. -/
def Linsys.Solution (L : Linsys n) (μ : ℂ) (x : Fin L.r ⊕ Fin L.r → ℂ) : Prop := match L.b with
  | none => L.a *ᵥ x = μ • x
  | some b => L.a *ᵥ x = μ • (b *ᵥ x)

/-- The wave function that `linsys.extract` gives for one vector. -/
def Linsys.extract1 (L : Linsys n) (μ : ℂ) (x : Fin L.r ⊕ Fin L.r → ℂ) : Fin n → ℂ :=
  fun i => L.extract (k := 1) (of fun j _ => x j) (fun _ => μ) i 0

/-- The singular values that `setup_linsys` drops are exactly zero. -/
def CutExact (e : Numerics n) (hop : Matrix (Fin n) (Fin n) ℂ) : Prop :=
  ∀ i : Fin n, (e.svd hop).s i ≤ e.eps * (e.svd hop).s ⟨0, i.pos⟩ → (e.svd hop).s i = 0

/-- There is no solution in a single cell, without amplitude in the neighboring cell on the one side. -/
def NoInfinite (h hop : Matrix (Fin n) (Fin n) ℂ) : Prop := ∀ ψ φ : Fin n → ℂ, hop *ᵥ ψ = 0 → h *ᵥ ψ = hop *ᵥ φ → ψ = 0

theorem isBloch_iff (h hop : Matrix (Fin n) (Fin n) ℂ) {μ : ℂ} (hμ : μ ≠ 0) (ψ : Fin n → ℂ) :
    IsBloch h hop μ ψ ↔ h *ᵥ ψ + μ • (hop *ᵥ ψ) + μ⁻¹ • (hopᴴ *ᵥ ψ) = 0 := by
  have hi : μ⁻¹ ≠ 0 := inv_ne_zero hμ
  have key : ∀ j : ℤ, h *ᵥ ((μ⁻¹ ^ j) • ψ) + hop *ᵥ ((μ⁻¹ ^ (j - 1)) • ψ) + hopᴴ *ᵥ ((μ⁻¹ ^ (j + 1)) • ψ) =
      (μ⁻¹ ^ j) • (h *ᵥ ψ + μ • (hop *ᵥ ψ) + μ⁻¹ • (hopᴴ *ᵥ ψ)) := by
    intro j
    rw [zpow_sub_one₀ hi, zpow_add_one₀ hi]
    simp only [mulVec_smul, smul_add, smul_smul, inv_inv]
  constructor
  · intro hb
    have := hb 0
    dsimp only at this
    rw [key 0] at this
    simpa using this
  · intro hb j
    dsimp only
    rw [key j, hb, smul_zero]

/-! ### The algebra of the pencil -/

/-- `1j` if the matrix was stabilized, otherwise zero. -/
def cc (need : Bool) : ℂ := if need then I else 0

section core
variable {K : Type} [Fintype K] [DecidableEq K]
variable {r : ℕ} (u v : Matrix (Fin n) (Fin r) ℂ) (c : ℂ) (hs : Matrix (Fin n) (Fin n) ℂ)

/-- The right-hand side in `extract_wf`, for a pair of matrices instead of numbers. -/
def rhs (x1 x2 : Matrix (Fin r) K ℂ) (S T : Matrix K K ℂ) : Matrix (Fin n) K ℂ :=
  -(u * (x1 * T)) - v * (x2 * S) + c • (v * (x1 * S) + u * (x2 * T))

theorem core (x1 x2 : Matrix (Fin r) K ℂ) (S T : Matrix K K ℂ) :
    fromBlocks ((-c) • (uᴴ * (hs⁻¹ * v))) (uᴴ * (hs⁻¹ * v)) (1 - c • (vᴴ * (hs⁻¹ * v))) (vᴴ * (hs⁻¹ * v)) * fromRows (x1 * S) (x2 * S) =
      fromBlocks (-(uᴴ * (hs⁻¹ * u))) (-1 + c • (uᴴ * (hs⁻¹ * u))) (-(vᴴ * (hs⁻¹ * u))) (c • (vᴴ * (hs⁻¹ * u))) * fromRows (x1 * T) (x2 * T) ↔
    x1 * S = vᴴ * (hs⁻¹ * rhs u v c x1 x2 S T) ∧ x2 * T = uᴴ * (hs⁻¹ * rhs u v c x1 x2 S T) := by
  rw [fromBlocks_mul_fromRows, fromBlocks_mul_fromRows, fromRows_ext_iff]
  simp only [rhs, Matrix.add_mul, Matrix.mul_add, Matrix.sub_mul, Matrix.mul_sub, Matrix.neg_mul, Matrix.mul_neg, Matrix.smul_mul, Matrix.mul_smul,
    Matrix.one_mul, Matrix.mul_assoc, smul_add, neg_smul]
  constructor
  · rintro ⟨h1, h2⟩
    refine ⟨?_, ?_⟩
    · rw [← sub_eq_zero] at h2 ⊢; rw [← h2]; abel
    · rw [← sub_eq_zero] at h1; rw [← sub_eq_zero, ← h1]; abel
  · rintro ⟨h1, h2⟩
    refine ⟨?_, ?_⟩
    · rw [← sub_eq_zero] at h2; rw [← sub_eq_zero, ← h2]; abel
    · rw [← sub_eq_zero] at h1 ⊢; rw [← h1]; abel

end core

/-- The eigenproblem of `linsys`, for a pair of matrices instead of an eigenvalue. -/
def Linsys.Pencil (L : Linsys n) {K : Type} [Fintype K] (Z : Matrix (Fin L.r ⊕ Fin L.r) K ℂ) (S T : Matrix K K ℂ) : Prop := match L.b with
  | none => L.a * (Z * S) = Z * T
  | some b => L.a * (Z * S) = b * (Z * T)

/-- What both algorithms achieve: the hopping is `u vᴴ`, and the halves of a solution are `vᴴ Ψ` and `uᴴ Ψ` for a solution `Ψ` of the lead. -/
structure Faithful (h hop : Matrix (Fin n) (Fin n) ℂ) (L : Linsys n) (u : Matrix (Fin n) (Fin L.r) ℂ) : Prop where
  fact : hop = u * L.vᴴ
  uInj : ∀ x : Fin L.r → ℂ, u *ᵥ x = 0 → x = 0
  pencil : ∀ {K : Type} [Fintype K] [DecidableEq K] (x1 x2 : Matrix (Fin L.r) K ℂ) (S T : Matrix K K ℂ), L.Pencil (fromRows x1 x2) S T ↔
    ∃ Ψ : Matrix (Fin n) K ℂ, x1 * S = L.vᴴ * Ψ ∧ x2 * T = uᴴ * Ψ ∧ h * Ψ + L.v * (x2 * S) + u * (x1 * T) = 0
  unique : ∀ {K : Type} [Fintype K] [DecidableEq K] (Ψ : Matrix (Fin n) K ℂ), L.vᴴ * Ψ = 0 → uᴴ * Ψ = 0 → h * Ψ = 0 → Ψ = 0
  extract : ∀ {k : ℕ} (Ψ : Matrix (Fin n) (Fin k) ℂ) (x1 x2 : Matrix (Fin L.r) (Fin k) ℂ) (l : Fin k → ℂ), x1 = L.vᴴ * Ψ → x2 * diagonal l = uᴴ * Ψ →
    h * Ψ + L.v * x2 + u * (x1 * diagonal l) = 0 → L.extract (fromRows x1 x2) l = Ψ
  columns : ∀ {k : ℕ} (Z : Matrix (Fin L.r ⊕ Fin L.r) (Fin k) ℂ) (l : Fin k → ℂ) (i : Fin n) (c : Fin k),
    L.extract Z l i c = L.extract1 (l c) (fun j => Z j c) i

theorem stab_mul {r : ℕ} (h : Matrix (Fin n) (Fin n) ℂ) (u v : Matrix (Fin n) (Fin r) ℂ) (c : ℂ) {K : Type} [Fintype K] [DecidableEq K]
    (x1 x2 : Matrix (Fin r) K ℂ) (S T : Matrix K K ℂ) (Ψ : Matrix (Fin n) K ℂ) (h1 : x1 * S = vᴴ * Ψ) (h2 : x2 * T = uᴴ * Ψ) :
    (h + c • (u * uᴴ + v * vᴴ)) * Ψ = rhs u v c x1 x2 S T ↔ h * Ψ + v * (x2 * S) + u * (x1 * T) = 0 := by
  rw [rhs, h1, h2, ← sub_eq_zero]
  have : (h + c • (u * uᴴ + v * vᴴ)) * Ψ - (-(u * (x1 * T)) - v * (x2 * S) + c • (v * (vᴴ * Ψ) + u * (uᴴ * Ψ))) =
      h * Ψ + v * (x2 * S) + u * (x1 * T) := by
    rw [Matrix.add_mul, Matrix.smul_mul, Matrix.add_mul, Matrix.mul_assoc, Matrix.mul_assoc, add_comm (u * (uᴴ * Ψ))]
    abel
  rw [this]

theorem pencilA_eq (e : Numerics n) {hop : Matrix (Fin n) (Fin n) ℂ} (he : e.Ok hop) {hs : Matrix (Fin n) (Fin n) ℂ} (hu : IsUnit hs.det) {r : ℕ} (u v : Matrix (Fin n) (Fin r) ℂ) (need : Bool) :
    pencilA e hs u v need = fromBlocks ((-cc need) • (uᴴ * (hs⁻¹ * v))) (uᴴ * (hs⁻¹ * v)) (1 - cc need • (vᴴ * (hs⁻¹ * v))) (vᴴ * (hs⁻¹ * v)) := by
  rw [pencilA, he.luSolve _ _ hu]
  cases need <;> simp [cc]

theorem pencilB_eq (e : Numerics n) {hop : Matrix (Fin n) (Fin n) ℂ} (he : e.Ok hop) {hs : Matrix (Fin n) (Fin n) ℂ} (hu : IsUnit hs.det) {r : ℕ} (u v : Matrix (Fin n) (Fin r) ℂ) (need : Bool) :
    pencilB e hs u v need = fromBlocks (-(uᴴ * (hs⁻¹ * u))) (-1 + cc need • (uᴴ * (hs⁻¹ * u))) (-(vᴴ * (hs⁻¹ * u))) (cc need • (vᴴ * (hs⁻¹ * u))) := by
  rw [pencilB, he.luSolve _ _ hu]
  cases need <;> simp [cc]

theorem extractWf_eq (e : Numerics n) {hop : Matrix (Fin n) (Fin n) ℂ} (he : e.Ok hop) {hs : Matrix (Fin n) (Fin n) ℂ} (hu : IsUnit hs.det) {r : ℕ} (u v : Matrix (Fin n) (Fin r) ℂ) (need : Bool)
    {k : ℕ} (psi : Matrix (Fin r ⊕ Fin r) (Fin k) ℂ) (l : Fin k → ℂ) :
    extractWf e hs u v need psi l = hs⁻¹ * rhs u v (cc need) psi.toRows₁ psi.toRows₂ 1 (diagonal l) := by
  rw [extractWf, he.luSolve _ _ hu, rhs]
  cases need <;> simp [cc, Matrix.neg_mul]

/-- The generalized and the reduced problem are the same. -/
theorem svd_pencil (e : Numerics n) {hop : Matrix (Fin n) (Fin n) ℂ} (he : e.Ok hop) (hs : Matrix (Fin n) (Fin n) ℂ) {r : ℕ} (u v : Matrix (Fin n) (Fin r) ℂ) (need red : Bool)
    (hB : red = true → IsUnit (pencilB e hs u v need).det) {K : Type} [Fintype K] (Z : Matrix (Fin r ⊕ Fin r) K ℂ) (S T : Matrix K K ℂ) :
    (linsysCore e hs u v need red).Pencil Z S T ↔ pencilA e hs u v need * (Z * S) = pencilB e hs u v need * (Z * T) := by
  cases red with
  | true =>
    have hu := hB rfl
    change e.luSolve (pencilB e hs u v need) (pencilA e hs u v need) * (Z * S) = Z * T ↔ _
    rw [he.luSolve _ _ hu, Matrix.mul_assoc]
    constructor
    · intro h
      rw [← h, Matrix.mul_nonsing_inv_cancel_left _ _ hu]
    · intro h
      rw [h, Matrix.nonsing_inv_mul_cancel_left _ _ hu]
  | false => exact Iff.rfl

theorem reduce_ok (e : Numerics n) {hop : Matrix (Fin n) (Fin n) ℂ} (he : e.Ok hop) (hs : Matrix (Fin n) (Fin n) ℂ) {r : ℕ} (u v : Matrix (Fin n) (Fin r) ℂ) (need : Bool)
    (hr : reduce e hs u v need false = true) : IsUnit (pencilB e hs u v need).det := by
  rw [reduce, if_neg (by simp), decide_eq_true_eq] at hr
  exact he.rcond _ (lt_trans (mul_pos he.eps he.tol) hr)

theorem faithful_svd (e : Numerics n) (h hop : Matrix (Fin n) (Fin n) ℂ) (he : e.Ok hop) {r : ℕ} (u v : Matrix (Fin n) (Fin r) ℂ) (need red : Bool)
    (hu : IsUnit (h + cc need • (u * uᴴ + v * vᴴ)).det) (hf : hop = u * vᴴ) (hi : ∀ x : Fin r → ℂ, u *ᵥ x = 0 → x = 0)
    (hB : red = true → IsUnit (pencilB e (h + cc need • (u * uᴴ + v * vᴴ)) u v need).det) :
    Faithful h hop (linsysCore e (h + cc need • (u * uᴴ + v * vᴴ)) u v need red) u := by
  refine ⟨hf, hi, ?_, ?_, ?_, ?_⟩
  · intro K _ _ (x1 : Matrix (Fin r) K ℂ) (x2 : Matrix (Fin r) K ℂ) S T
    change _ ↔ ∃ Ψ : Matrix (Fin n) K ℂ, x1 * S = vᴴ * Ψ ∧ x2 * T = uᴴ * Ψ ∧ h * Ψ + v * (x2 * S) + u * (x1 * T) = 0
    refine (svd_pencil e he _ u v need red hB (fromRows x1 x2) _ _).trans ?_
    rw [pencilA_eq e he hu, pencilB_eq e he hu, fromRows_mul, fromRows_mul, core]
    constructor
    · rintro ⟨h1, h2⟩
      refine ⟨_, h1, h2, ?_⟩
      rw [← stab_mul h u v (cc need) x1 x2 S T _ h1 h2, Matrix.mul_nonsing_inv_cancel_left _ _ hu]
    · rintro ⟨Ψ, h1, h2, h3⟩
      rw [← stab_mul h u v (cc need) x1 x2 S T Ψ h1 h2] at h3
      rw [← h3, Matrix.nonsing_inv_mul_cancel_left _ _ hu]
      exact ⟨h1, h2⟩
  · intro K _ _ Ψ (h1 : vᴴ * Ψ = 0) (h2 : uᴴ * Ψ = 0) h3
    have : (h + cc need • (u * uᴴ + v * vᴴ)) * Ψ = 0 := by
      rw [Matrix.add_mul, Matrix.smul_mul, Matrix.add_mul, Matrix.mul_assoc, Matrix.mul_assoc, h1, h2, h3]
      simp
    rw [← Matrix.nonsing_inv_mul_cancel_left _ Ψ hu, this, Matrix.mul_zero]
  · intro k Ψ (x1 : Matrix (Fin r) (Fin k) ℂ) (x2 : Matrix (Fin r) (Fin k) ℂ) l (h1 : x1 = vᴴ * Ψ) (h2 : x2 * diagonal l = uᴴ * Ψ)
      (h3 : h * Ψ + v * x2 + u * (x1 * diagonal l) = 0)
    refine (extractWf_eq e he hu u v need (fromRows x1 x2) l).trans ?_
    have := (stab_mul h u v (cc need) x1 x2 1 (diagonal l) Ψ (by rw [Matrix.mul_one]; exact h1) h2).2 (by rw [Matrix.mul_one]; exact h3)
    rw [toRows₁_fromRows, toRows₂_fromRows, ← this, Matrix.nonsing_inv_mul_cancel_left _ _ hu]
  · intro k (Z : Matrix (Fin r ⊕ Fin r) (Fin k) ℂ) l i c
    change extractWf e _ u v need Z l i c = extractWf e _ u v need (of fun j _ => Z j c) (fun _ : Fin 1 => l c) i 0
    rw [extractWf_eq e he hu, extractWf_eq e he hu, Matrix.mul_apply, Matrix.mul_apply]
    refine Finset.sum_congr rfl fun j _ => ?_
    congr 1
    simp only [rhs, Matrix.add_apply, Matrix.sub_apply, Matrix.neg_apply, Matrix.smul_apply, Matrix.mul_one, toRows₁, toRows₂]
    simp [Matrix.mul_apply, Matrix.diagonal_apply]

/-! ### The singular value decomposition -/

/-- The first `nNonsing` singular values are those above the threshold. -/
theorem lt_nNonsing (e : Numerics n) {s : Fin n → ℝ} (hs : Antitone s) (i : Fin n) : i.val < nNonsing e s ↔ s i > e.eps * s ⟨0, i.pos⟩ := by
  have hsub : ∀ i j : Fin n, j ≤ i → s i > e.eps * s ⟨0, i.pos⟩ → s j > e.eps * s ⟨0, j.pos⟩ := fun i j h hi => lt_of_lt_of_le hi (hs h)
  constructor
  · intro hi
    by_contra hc
    have : (Finset.univ.filter fun i : Fin n => s i > e.eps * s ⟨0, i.pos⟩) ⊆ Finset.univ.filter fun j : Fin n => j < i := by
      intro j hj
      rw [Finset.mem_filter] at hj ⊢
      refine ⟨Finset.mem_univ _, ?_⟩
      by_contra hji
      exact hc (hsub j i (not_lt.mp hji) hj.2)
    have := Finset.card_le_card this
    rw [show (Finset.univ.filter fun j : Fin n => j < i) = Finset.Iio i by ext j; simp, Fin.card_Iio] at this
    exact absurd hi (not_lt.mpr this)
  · intro hi
    have : Finset.Iic i ⊆ Finset.univ.filter fun i : Fin n => s i > e.eps * s ⟨0, i.pos⟩ := by
      intro j hj
      rw [Finset.mem_filter]
      exact ⟨Finset.mem_univ _, hsub i j (Finset.mem_Iic.mp hj) hi⟩
    have := Finset.card_le_card this
    rw [Fin.card_Iic] at this
    exact this

theorem sum_castLE {r : ℕ} (hr : r ≤ n) (f : Fin n → ℂ) (hf : ∀ i : Fin n, r ≤ i.val → f i = 0) : ∑ j : Fin r, f (Fin.castLE hr j) = ∑ i, f i := by
  have : ∑ j : Fin r, f (Fin.castLE hr j) = ∑ i ∈ Finset.univ.map (Fin.castLEEmb hr), f i := by
    rw [Finset.sum_map]; rfl
  rw [this]
  refine Finset.sum_subset (Finset.subset_univ _) fun i _ hi => hf i ?_
  by_contra hc
  refine hi ?_
  rw [Finset.mem_map]
  exact ⟨⟨i.val, not_le.mp hc⟩, Finset.mem_univ _, rfl⟩

theorem sqrt_mul_sqrt_complex {x : ℝ} (hx : 0 ≤ x) : (Real.sqrt x : ℂ) * (Real.sqrt x : ℂ) = x := by
  rw [← Complex.ofReal_mul, Real.mul_self_sqrt hx]

theorem cut_fact (e : Numerics n) {hop : Matrix (Fin n) (Fin n) ℂ} (he : e.Ok hop) (hc : CutExact e hop) :
    hop = cutU (e.svd hop) (nNonsing_le e (e.svd hop).s) * (cutV (e.svd hop) (nNonsing_le e (e.svd hop).s))ᴴ := by
  have ho := he.svd
  ext i j
  conv_lhs => rw [ho.fact]
  rw [Matrix.mul_apply, Matrix.mul_apply]
  simp only [Matrix.mul_diagonal, conjTranspose_apply, cutU, cutV, of_apply]
  rw [← sum_castLE (nNonsing_le e (e.svd hop).s)]
  · refine Finset.sum_congr rfl fun k _ => ?_
    rw [star_def, map_mul, Complex.conj_conj, Complex.conj_ofReal]
    have := sqrt_mul_sqrt_complex (ho.nonneg (Fin.castLE (nNonsing_le e (e.svd hop).s) k))
    linear_combination (-(e.svd hop).u i (Fin.castLE (nNonsing_le e (e.svd hop).s) k) * (e.svd hop).vh (Fin.castLE (nNonsing_le e (e.svd hop).s) k) j) * this
  · intro k hk
    have : ¬k.val < nNonsing e (e.svd hop).s := not_lt.mpr hk
    rw [lt_nNonsing e ho.desc, not_lt] at this
    rw [hc k this]
    simp

theorem cutU_inj (e : Numerics n) (hop : Matrix (Fin n) (Fin n) ℂ) (he : e.Ok hop) (x : Fin (nNonsing e (e.svd hop).s) → ℂ)
    (hx : cutU (e.svd hop) (nNonsing_le e _) *ᵥ x = 0) : x = 0 := by
  have ho := he.svd
  have h1 : (e.svd hop).uᴴ *ᵥ (cutU (e.svd hop) (nNonsing_le e _) *ᵥ x) = 0 := by rw [hx, mulVec_zero]
  rw [mulVec_mulVec] at h1
  ext k
  have h2 := congrFun h1 (Fin.castLE (nNonsing_le e _) k)
  have h3 : ∀ j, ((e.svd hop).uᴴ * cutU (e.svd hop) (nNonsing_le e _)) (Fin.castLE (nNonsing_le e _) k) j =
      if k = j then (Real.sqrt ((e.svd hop).s (Fin.castLE (nNonsing_le e _) j)) : ℂ) else 0 := by
    intro j
    have h4 := congrFun (congrFun ho.uu (Fin.castLE (nNonsing_le e _) k)) (Fin.castLE (nNonsing_le e _) j)
    rw [Matrix.mul_apply] at h4 ⊢
    simp only [cutU, of_apply, ← mul_assoc]
    rw [← Finset.sum_mul, h4, one_apply]
    by_cases hkj : k = j
    · subst hkj; simp
    · rw [if_neg, if_neg hkj, zero_mul]
      intro hc
      exact hkj (Fin.castLE_injective _ hc)
  rw [mulVec, dotProduct] at h2
  simp only [h3, ite_mul, zero_mul, Finset.sum_ite_eq, Finset.mem_univ, if_true, Pi.zero_apply, mul_eq_zero] at h2
  rcases h2 with h2 | h2
  · exfalso
    have hpos : (Fin.castLE (nNonsing_le e (e.svd hop).s) k).val < nNonsing e (e.svd hop).s := k.2
    rw [lt_nNonsing e ho.desc] at hpos
    have : 0 < (e.svd hop).s (Fin.castLE (nNonsing_le e (e.svd hop).s) k) :=
      lt_of_le_of_lt (mul_nonneg he.eps.le (ho.nonneg _)) hpos
    rw [Complex.ofReal_eq_zero, Real.sqrt_eq_zero (ho.nonneg _)] at h2
    exact this.ne' h2
  · exact h2

theorem hop_unit (e : Numerics n) {hop : Matrix (Fin n) (Fin n) ℂ} (he : e.Ok hop) (hn : nNonsing e (e.svd hop).s = n) : IsUnit hop.det := by
  have ho := he.svd
  rw [ho.fact, det_mul, det_mul, det_diagonal]
  have h1 : IsUnit (e.svd hop).u.det := by
    have := congrArg det ho.uu
    rw [det_mul, det_one] at this
    exact IsUnit.of_mul_eq_one _ (by rw [mul_comm]; exact this)
  have h2 : IsUnit (e.svd hop).vh.det := by
    have := congrArg det ho.vv
    rw [det_mul, det_one] at this
    exact IsUnit.of_mul_eq_one _ this
  refine (h1.mul ?_).mul h2
  rw [isUnit_iff_ne_zero, Finset.prod_ne_zero_iff]
  intro i _
  have := (lt_nNonsing e ho.desc i).mp (by rw [hn]; exact i.2)
  exact_mod_cast (lt_of_le_of_lt (mul_nonneg he.eps.le (ho.nonneg _)) this).ne'

/-! ### The regular branch -/

theorem frob_pos {hop : Matrix (Fin n) (Fin n) ℂ} (hne : hop ≠ 0) : 0 < frob hop := by
  rw [frob, Real.sqrt_pos]
  have : ∃ i j, hop i j ≠ 0 := by
    by_contra hc
    push Not at hc
    exact hne (by ext i j; exact hc i j)
  obtain ⟨i, j, hij⟩ := this
  refine Finset.sum_pos' (fun i _ => Finset.sum_nonneg fun j _ => by positivity) ⟨i, Finset.mem_univ _, ?_⟩
  exact Finset.sum_pos' (fun j _ => by positivity) ⟨j, Finset.mem_univ _, by positivity⟩

theorem faithful_reg (e : Numerics n) (h : Matrix (Fin n) (Fin n) ℂ) {hop : Matrix (Fin n) (Fin n) ℂ} (he : e.Ok hop) (hne : hop ≠ 0) (hu : IsUnit hop.det) :
    Faithful h hop (linsysReg e h hop) (((Real.sqrt (frob hop) : ℝ) : ℂ)⁻¹ • hop) := by
  set B : ℂ := ((Real.sqrt (frob hop) : ℝ) : ℂ) with hBdef
  have hB : B ≠ 0 := by
    rw [hBdef, Complex.ofReal_ne_zero]
    exact (Real.sqrt_pos.mpr (frob_pos hne)).ne'
  have hBs : star B = B := by rw [hBdef, star_def, Complex.conj_ofReal]
  set A : Matrix (Fin n) (Fin n) ℂ := B⁻¹ • hop with hA
  have hAu : IsUnit A.det := by
    rw [hA, det_smul]
    exact (isUnit_iff_ne_zero.mpr (pow_ne_zero _ (inv_ne_zero hB))).mul hu
  have hv : ∀ {K : Type} [Fintype K] (Ψ : Matrix (Fin n) K ℂ), (B • (1 : Matrix (Fin n) (Fin n) ℂ))ᴴ * Ψ = B • Ψ := by
    intro K _ Ψ
    rw [conjTranspose_smul, hBs, conjTranspose_one, Matrix.smul_mul, Matrix.one_mul]
  refine ⟨?_, ?_, ?_, ?_, ?_, ?_⟩
  · change hop = A * (B • (1 : Matrix (Fin n) (Fin n) ℂ))ᴴ
    rw [conjTranspose_smul, hBs, conjTranspose_one, Matrix.mul_smul, Matrix.mul_one, hA, smul_smul, mul_inv_cancel₀ hB, one_smul]
  · intro (x : Fin n → ℂ) (hx : A *ᵥ x = 0)
    have : A⁻¹ *ᵥ (A *ᵥ x) = 0 := by rw [hx, mulVec_zero]
    rwa [mulVec_mulVec, nonsing_inv_mul _ hAu, one_mulVec] at this
  · intro K _ _ (x1 : Matrix (Fin n) K ℂ) (x2 : Matrix (Fin n) K ℂ) S T
    change fromBlocks ((1 / B) • (-e.inv A * h)) (B • -e.inv A) ((1 / B) • Aᴴ) 0 * (fromRows x1 x2 * S) = fromRows x1 x2 * T ↔
      ∃ Ψ : Matrix (Fin n) K ℂ, x1 * S = (B • (1 : Matrix (Fin n) (Fin n) ℂ))ᴴ * Ψ ∧ x2 * T = Aᴴ * Ψ ∧
        h * Ψ + (B • (1 : Matrix (Fin n) (Fin n) ℂ)) * (x2 * S) + A * (x1 * T) = 0
    rw [he.inv A hAu, one_div, fromRows_mul, fromRows_mul, fromBlocks_mul_fromRows, fromRows_ext_iff]
    simp only [hv, Matrix.smul_mul, Matrix.one_mul, Matrix.neg_mul, Matrix.zero_mul, add_zero, Matrix.mul_assoc, smul_neg]
    constructor
    · rintro ⟨h1, h2⟩
      refine ⟨B⁻¹ • (x1 * S), ?_, ?_, ?_⟩
      · rw [smul_smul, mul_inv_cancel₀ hB, one_smul]
      · rw [← h2, Matrix.mul_smul]
      · rw [← h1, Matrix.mul_add, Matrix.mul_neg, Matrix.mul_neg, Matrix.mul_smul, Matrix.mul_smul, Matrix.mul_smul,
          Matrix.mul_nonsing_inv_cancel_left _ _ hAu, Matrix.mul_nonsing_inv_cancel_left _ _ hAu]
        abel
    · rintro ⟨Ψ, h1, h2, h3⟩
      have hΨ : Ψ = B⁻¹ • (x1 * S) := by rw [h1, smul_smul, inv_mul_cancel₀ hB, one_smul]
      refine ⟨?_, ?_⟩
      · have h4 : A * (x1 * T) = -(B⁻¹ • (h * (x1 * S))) - B • (x2 * S) := by
          rw [hΨ, Matrix.mul_smul] at h3
          rw [← sub_eq_zero, ← h3]; abel
        rw [← Matrix.nonsing_inv_mul_cancel_left _ (x1 * T) hAu, h4, Matrix.mul_sub, Matrix.mul_neg, Matrix.mul_smul, Matrix.mul_smul]
        abel
      · rw [h2, hΨ, Matrix.mul_smul]
  · intro K _ _ Ψ (h1 : (B • (1 : Matrix (Fin n) (Fin n) ℂ))ᴴ * Ψ = 0) _ _
    rw [hv] at h1
    exact (smul_eq_zero.mp h1).resolve_left hB
  · intro k Ψ (x1 : Matrix (Fin n) (Fin k) ℂ) (x2 : Matrix (Fin n) (Fin k) ℂ) l (h1 : x1 = (B • (1 : Matrix (Fin n) (Fin n) ℂ))ᴴ * Ψ) _ _
    change (1 / B) • (fromRows x1 x2).toRows₁ = Ψ
    rw [toRows₁_fromRows, h1, hv, smul_smul, one_div, inv_mul_cancel₀ hB, one_smul]
  · intro k (Z : Matrix (Fin n ⊕ Fin n) (Fin k) ℂ) l i c
    rfl

/-! ### Both branches -/

theorem cutV_gram (e : Numerics n) (hop : Matrix (Fin n) (Fin n) ℂ) (he : e.Ok hop) {r : ℕ} (hr : r ≤ n) :
    (cutV (e.svd hop) hr)ᴴ * cutV (e.svd hop) hr = diagonal fun k => ((e.svd hop).s (Fin.castLE hr k) : ℂ) := by
  have ho := he.svd
  ext k j
  have h4 := congrFun (congrFun ho.vv (Fin.castLE hr k)) (Fin.castLE hr j)
  rw [Matrix.mul_apply] at h4 ⊢
  simp only [conjTranspose_apply, cutV, of_apply, star_def, map_mul, Complex.conj_conj, Complex.conj_ofReal] at h4 ⊢
  have : ∀ x, (e.svd hop).vh (Fin.castLE hr k) x * (Real.sqrt ((e.svd hop).s (Fin.castLE hr k)) : ℂ) *
      ((starRingEnd ℂ) ((e.svd hop).vh (Fin.castLE hr j) x) * (Real.sqrt ((e.svd hop).s (Fin.castLE hr j)) : ℂ)) =
      (e.svd hop).vh (Fin.castLE hr k) x * (starRingEnd ℂ) ((e.svd hop).vh (Fin.castLE hr j) x) *
        ((Real.sqrt ((e.svd hop).s (Fin.castLE hr k)) : ℂ) * (Real.sqrt ((e.svd hop).s (Fin.castLE hr j)) : ℂ)) := fun x => by ring
  simp only [this]
  rw [← Finset.sum_mul, h4, one_apply, diagonal_apply]
  by_cases hkj : k = j
  · subst hkj
    rw [if_pos rfl, if_pos rfl, one_mul, sqrt_mul_sqrt_complex (ho.nonneg _)]
  · rw [if_neg (fun hc => hkj (Fin.castLE_injective _ hc)), if_neg hkj, zero_mul]

theorem cutV_surj (e : Numerics n) (hop : Matrix (Fin n) (Fin n) ℂ) (he : e.Ok hop) (y : Fin (nNonsing e (e.svd hop).s) → ℂ) :
    ∃ φ, (cutV (e.svd hop) (nNonsing_le e (e.svd hop).s))ᴴ *ᵥ φ = y := by
  have ho := he.svd
  refine ⟨cutV (e.svd hop) (nNonsing_le e (e.svd hop).s) *ᵥ fun k => ((e.svd hop).s (Fin.castLE (nNonsing_le e (e.svd hop).s) k) : ℂ)⁻¹ * y k, ?_⟩
  rw [mulVec_mulVec, cutV_gram e hop he]
  ext k
  rw [mulVec_diagonal, mul_inv_cancel_left₀]
  have hpos : (Fin.castLE (nNonsing_le e (e.svd hop).s) k).val < nNonsing e (e.svd hop).s := k.2
  rw [lt_nNonsing e ho.desc] at hpos
  exact_mod_cast (lt_of_le_of_lt (mul_nonneg he.eps.le (ho.nonneg _)) hpos).ne'

/-- The matrix `B` is invertible if there are no infinitely fast decaying solutions. -/
theorem pencilB_unit (e : Numerics n) {h hop : Matrix (Fin n) (Fin n) ℂ} (he : e.Ok hop) (hc : CutExact e hop) (hni : NoInfinite h hop) (need : Bool)
    (hu : IsUnit (h + cc need • (cutU (e.svd hop) (nNonsing_le e (e.svd hop).s) * (cutU (e.svd hop) (nNonsing_le e (e.svd hop).s))ᴴ +
      cutV (e.svd hop) (nNonsing_le e (e.svd hop).s) * (cutV (e.svd hop) (nNonsing_le e (e.svd hop).s))ᴴ)).det) :
    IsUnit (pencilB e (h + cc need • (cutU (e.svd hop) (nNonsing_le e (e.svd hop).s) * (cutU (e.svd hop) (nNonsing_le e (e.svd hop).s))ᴴ +
      cutV (e.svd hop) (nNonsing_le e (e.svd hop).s) * (cutV (e.svd hop) (nNonsing_le e (e.svd hop).s))ᴴ))
      (cutU (e.svd hop) (nNonsing_le e (e.svd hop).s)) (cutV (e.svd hop) (nNonsing_le e (e.svd hop).s)) need).det := by
  have hfact := cut_fact e he hc
  have hinj := cutU_inj e hop he
  have hsurj := cutV_surj e hop he
  set u := cutU (e.svd hop) (nNonsing_le e (e.svd hop).s) with hud
  set v := cutV (e.svd hop) (nNonsing_le e (e.svd hop).s) with hvd
  set hs := h + cc need • (u * uᴴ + v * vᴴ) with hhs
  rw [← isUnit_iff_isUnit_det, ← mulVec_injective_iff_isUnit]
  intro x y hxy
  rw [← sub_eq_zero]
  have hz : pencilB e hs u v need *ᵥ (x - y) = 0 := by rw [mulVec_sub, sub_eq_zero]; exact hxy
  generalize x - y = z at hz
  clear hxy x y
  let x1 : Matrix (Fin (nNonsing e (e.svd hop).s)) (Fin 1) ℂ := of fun j _ => z (Sum.inl j)
  let x2 : Matrix (Fin (nNonsing e (e.svd hop).s)) (Fin 1) ℂ := of fun j _ => z (Sum.inr j)
  have hz2 : pencilB e hs u v need * fromRows (x1 * (1 : Matrix (Fin 1) (Fin 1) ℂ)) (x2 * (1 : Matrix (Fin 1) (Fin 1) ℂ)) = 0 := by
    ext i j
    have := congrFun hz i
    rw [Matrix.mul_one, Matrix.mul_one, Matrix.mul_apply]
    rw [mulVec, dotProduct] at this
    rw [Matrix.zero_apply, ← show _ = (0 : ℂ) from this]
    refine Finset.sum_congr rfl fun k _ => ?_
    rcases k with k | k <;> rfl
  have hcore := (core (K := Fin 1) u v (cc need) hs x1 x2 0 1).mp (by
    rw [← pencilA_eq e he hu, ← pencilB_eq e he hu, hz2]
    simp)
  obtain ⟨h1, h2⟩ := hcore
  have h3 := (stab_mul h u v (cc need) x1 x2 0 1 _ h1 h2).mp (by rw [Matrix.mul_nonsing_inv_cancel_left _ _ hu])
  generalize hs⁻¹ * rhs u v (cc need) x1 x2 0 1 = Ψ at h1 h2 h3
  rw [Matrix.mul_zero, Matrix.mul_zero, Matrix.mul_one, add_zero] at h3
  rw [Matrix.mul_zero] at h1
  rw [Matrix.mul_one] at h2
  obtain ⟨φ, hφ⟩ := hsurj (fun j => -z (Sum.inl j))
  have hΨ0 : (fun i => Ψ i 0) = 0 := by
    refine hni _ φ ?_ ?_
    · rw [hfact, ← mulVec_mulVec]
      have : vᴴ *ᵥ (fun i => Ψ i 0) = 0 := by
        ext i
        exact (congrFun (congrFun h1 i) 0).symm
      rw [this, mulVec_zero]
    · rw [hfact, ← mulVec_mulVec, hφ]
      ext i
      have := congrFun (congrFun h3 i) 0
      rw [Matrix.add_apply, Matrix.mul_apply, Matrix.mul_apply] at this
      rw [mulVec, mulVec, dotProduct, dotProduct]
      simp only [mul_neg, Finset.sum_neg_distrib]
      rw [eq_neg_iff_add_eq_zero]
      exact this
  have hΨ : Ψ = 0 := by
    ext i j
    rw [Subsingleton.elim j 0]
    exact congrFun hΨ0 i
  rw [hΨ, Matrix.mul_zero] at h2
  rw [hΨ, Matrix.mul_zero, zero_add] at h3
  have hx1 : (fun j => z (Sum.inl j)) = 0 := by
    refine hinj _ ?_
    ext i
    exact congrFun (congrFun h3 i) 0
  ext i
  rcases i with i | i
  · exact congrFun hx1 i
  · exact congrFun (congrFun h2 i) 0

/-- Both branches of `setup_linsys` are faithful. -/
theorem setup_faithful (e : Numerics n) {h hop : Matrix (Fin n) (Fin n) ℂ} (he : e.Ok hop) {stab : Option (Option Bool × Bool)} {L : Linsys n}
    (hL : setupLinsys e h hop stab = .ok L) (hc : CutExact e hop) (hst : ∀ s0, stab = some (s0, true) → NoInfinite h hop) :
    ∃ u, Faithful h hop L u := by
  rw [setupLinsys] at hL
  split at hL
  · cases hL
  rename_i hne
  dsimp only at hL
  split at hL
  · rename_i hn
    cases hL
    exact ⟨_, faithful_reg e h he hne (hop_unit e he hn.1)⟩
  have red : ∀ (need : Bool) (hs : Matrix (Fin n) (Fin n) ℂ), hs = h + cc need • (cutU (e.svd hop) (nNonsing_le e (e.svd hop).s) *
      (cutU (e.svd hop) (nNonsing_le e (e.svd hop).s))ᴴ + cutV (e.svd hop) (nNonsing_le e (e.svd hop).s) * (cutV (e.svd hop) (nNonsing_le e (e.svd hop).s))ᴴ) →
      IsUnit hs.det → ∃ u, Faithful h hop (linsysSvd e hs (cutU (e.svd hop) (nNonsing_le e (e.svd hop).s)) (cutV (e.svd hop) (nNonsing_le e (e.svd hop).s))
        need (stab.getD (none, false)).2) u := by
    intro need hs hhs hu
    subst hhs
    refine ⟨_, faithful_svd e h hop he _ _ need _ hu (cut_fact e he hc) (cutU_inj e hop he) ?_⟩
    intro hr
    rcases stab with _ | ⟨s0, s1⟩
    · exact reduce_ok e he _ _ _ _ hr
    · cases s1 with
      | false => exact reduce_ok e he _ _ _ _ hr
      | true => exact pencilB_unit e he hc (hst s0 rfl) need hu
  split at hL
  · rename_i hr
    cases hL
    refine red false h (by simp [cc]) (he.rcond h (lt_of_lt_of_le he.eps (not_lt.mp hr.2)))
  · split at hL
    · cases hL
    · rename_i hr
      cases hL
      exact red true _ (by simp [cc, stabH]) (he.rcond _ (lt_of_lt_of_le he.eps (not_lt.mp hr)))

theorem solution_iff (L : Linsys n) (μ : ℂ) (x : Fin L.r ⊕ Fin L.r → ℂ) :
    L.Solution μ x ↔ L.Pencil (K := Fin 1) (of fun j _ => x j) 1 (diagonal fun _ => μ) := by
  rw [Linsys.Solution, Linsys.Pencil]
  have key : ∀ (a : Matrix (Fin L.r ⊕ Fin L.r) (Fin L.r ⊕ Fin L.r) ℂ) (y : Fin L.r ⊕ Fin L.r → ℂ), a *ᵥ x = μ • y ↔
      a * ((of fun j _ => x j : Matrix (Fin L.r ⊕ Fin L.r) (Fin 1) ℂ) * (1 : Matrix (Fin 1) (Fin 1) ℂ)) = (of fun j _ => y j : Matrix (Fin L.r ⊕ Fin L.r) (Fin 1) ℂ) * diagonal fun _ => μ := by
    intro a y
    rw [Matrix.mul_one]
    constructor
    · intro h
      ext i j
      rw [Matrix.mul_diagonal, Matrix.mul_apply, of_apply, mul_comm]
      exact congrFun h i
    · intro h
      ext i
      have := congrFun (congrFun h i) 0
      rw [Matrix.mul_diagonal, Matrix.mul_apply, of_apply, mul_comm] at this
      exact this
  cases hb : L.b with
  | none => exact key L.a x
  | some b =>
    dsimp only
    rw [key L.a (b *ᵥ x)]
    have : (of fun j _ => (b *ᵥ x) j : Matrix (Fin L.r ⊕ Fin L.r) (Fin 1) ℂ) = b * (of fun j _ => x j : Matrix (Fin L.r ⊕ Fin L.r) (Fin 1) ℂ) := rfl
    rw [this, Matrix.mul_assoc]

theorem col_mulVec {k m : Type} [Fintype m] (a : Matrix k m ℂ) (x : m → ℂ) :
    a * (of fun j _ => x j : Matrix m (Fin 1) ℂ) = (of fun j _ => (a *ᵥ x) j : Matrix k (Fin 1) ℂ) := rfl

theorem col_inj {k : Type} {x y : k → ℂ} (h : (of fun j _ => x j : Matrix k (Fin 1) ℂ) = (of fun j _ => y j : Matrix k (Fin 1) ℂ)) : x = y := by
  ext i
  exact congrFun (congrFun h i) 0

/-- The solutions of a faithful system, vector by vector. -/
theorem Faithful.solution {h hop : Matrix (Fin n) (Fin n) ℂ} {L : Linsys n} {u : Matrix (Fin n) (Fin L.r) ℂ} (hf : Faithful h hop L u) {μ : ℂ} (hμ : μ ≠ 0)
    (x : Fin L.r ⊕ Fin L.r → ℂ) : L.Solution μ x ↔ ∃ ψ, IsBloch h hop μ ψ ∧ x = Sum.elim (L.vᴴ *ᵥ ψ) (μ⁻¹ • (uᴴ *ᵥ ψ)) ∧ L.extract1 μ x = ψ := by
  have hsplit : (of fun j _ => x j : Matrix (Fin L.r ⊕ Fin L.r) (Fin 1) ℂ) =
      fromRows (of fun j _ => x (Sum.inl j)) (of fun j _ => x (Sum.inr j)) := by
    ext i j
    rcases i with i | i <;> rfl
  have hd : ∀ y : Fin L.r → ℂ, (of fun j _ => y j : Matrix (Fin L.r) (Fin 1) ℂ) * diagonal (fun _ => μ) = of fun j _ => (μ • y) j := by
    intro y
    ext i j
    rw [Matrix.mul_diagonal, of_apply, of_apply, Pi.smul_apply, smul_eq_mul, mul_comm]
  have hhop : hop = u * L.vᴴ := hf.fact
  have hhopH : hopᴴ = L.v * uᴴ := by rw [hhop, conjTranspose_mul, conjTranspose_conjTranspose]
  rw [solution_iff, hsplit, hf.pencil]
  constructor
  · rintro ⟨Ψ, h1, h2, h3⟩
    rw [Matrix.mul_one] at h1 h3
    obtain ⟨ψ, rfl⟩ : ∃ ψ : Fin n → ℂ, Ψ = of fun j _ => ψ j := ⟨fun j => Ψ j 0, by ext i j; rw [Subsingleton.elim j 0]; rfl⟩
    have hex := hf.extract _ _ _ _ h1 h2 h3
    rw [hd, col_mulVec] at h2
    rw [col_mulVec] at h1
    have e1 := col_inj h1
    have e2 := col_inj h2
    rw [hd, col_mulVec, col_mulVec, col_mulVec] at h3
    have e3 : h *ᵥ ψ + L.v *ᵥ (fun j => x (Sum.inr j)) + u *ᵥ (μ • fun j => x (Sum.inl j)) = 0 := by
      ext i
      exact congrFun (congrFun h3 i) 0
    have e2' : (fun j => x (Sum.inr j)) = μ⁻¹ • (uᴴ *ᵥ ψ) := by rw [← e2, smul_smul, inv_mul_cancel₀ hμ, one_smul]
    refine ⟨ψ, ?_, ?_, ?_⟩
    · rw [isBloch_iff _ _ hμ, ← e3, e1, e2', hhopH, hhop]
      simp only [mulVec_smul, mulVec_mulVec]
      abel
    · ext i
      rcases i with i | i
      · exact congrFun e1 i
      · exact congrFun e2' i
    · ext i
      rw [Linsys.extract1, hsplit]
      exact congrFun (congrFun hex i) 0
  · rintro ⟨ψ, hb, hx, _⟩
    rw [isBloch_iff _ _ hμ, hhopH, hhop] at hb
    refine ⟨of fun j _ => ψ j, ?_, ?_, ?_⟩
    · rw [Matrix.mul_one, col_mulVec, hx]; rfl
    · rw [hd, col_mulVec, hx]
      ext i j
      change μ * (μ⁻¹ * (uᴴ *ᵥ ψ) i) = _
      rw [mul_inv_cancel_left₀ hμ]; rfl
    · rw [Matrix.mul_one, hd, col_mulVec, col_mulVec, col_mulVec, hx]
      ext i j
      have := congrFun hb i
      simp only [Matrix.add_apply, of_apply, Sum.elim_inl, Sum.elim_inr]
      change (h *ᵥ ψ) i + (L.v *ᵥ (μ⁻¹ • (uᴴ *ᵥ ψ))) i + (u *ᵥ (μ • (L.vᴴ *ᵥ ψ))) i = 0
      rw [mulVec_smul, mulVec_smul, mulVec_mulVec, mulVec_mulVec, ← show _ = (0 : ℂ) from this]
      simp only [Pi.add_apply]
      ring

/-- C108: for every algorithm that `setup_linsys` can choose, and every number `lmbdainv` other than zero, the solutions of the eigenproblem and the
solutions of the infinite lead that get multiplied by `1 / lmbdainv` from cell to cell are in one-to-one correspondence, and `extract` is the map.  With
`stabilization[1] = True` (see `C108_forced`) this needs that there are no infinitely fast decaying solutions. -/
theorem C108_bloch (e : Numerics n) {h hop : Matrix (Fin n) (Fin n) ℂ} (he : e.Ok hop) {stab : Option (Option Bool × Bool)} {L : Linsys n}
    (hL : setupLinsys e h hop stab = .ok L) (hc : CutExact e hop) (hst : ∀ s0, stab = some (s0, true) → NoInfinite h hop) {μ : ℂ} (hμ : μ ≠ 0) :
    Set.BijOn (L.extract1 μ) {x | L.Solution μ x} {ψ | IsBloch h hop μ ψ} := by
  obtain ⟨u, hf⟩ := setup_faithful e he hL hc hst
  refine ⟨?_, ?_, ?_⟩
  · intro x hx
    obtain ⟨ψ, hb, _, he⟩ := (hf.solution hμ x).mp hx
    rw [he]
    exact hb
  · intro x hx y hy hxy
    obtain ⟨ψ, _, hx1, hx2⟩ := (hf.solution hμ x).mp hx
    obtain ⟨φ, _, hy1, hy2⟩ := (hf.solution hμ y).mp hy
    rw [hx2, hy2] at hxy
    rw [hx1, hy1, hxy]
  · intro ψ hψ
    let x : Fin L.r ⊕ Fin L.r → ℂ := Sum.elim (L.vᴴ *ᵥ ψ) (μ⁻¹ • (uᴴ *ᵥ ψ))
    have key : L.extract1 μ x = ψ := by
      have hb := (isBloch_iff _ _ hμ _).mp hψ
      have hhop : hop = u * L.vᴴ := hf.fact
      have hhopH : hopᴴ = L.v * uᴴ := by rw [hhop, conjTranspose_mul, conjTranspose_conjTranspose]
      rw [hhopH, hhop] at hb
      have := hf.extract (k := 1) (of fun j _ => ψ j) (of fun j _ => (L.vᴴ *ᵥ ψ) j) (of fun j _ => (μ⁻¹ • (uᴴ *ᵥ ψ)) j) (fun _ => μ) rfl ?_ ?_
      · ext i
        have h2 := congrFun (congrFun this i) 0
        rw [Linsys.extract1, ← show _ = ψ i from h2]
        congr 1
        ext j c
        rcases j with j | j <;> rfl
      · ext i j
        rw [Matrix.mul_diagonal, of_apply, Pi.smul_apply, smul_eq_mul, mul_comm, mul_inv_cancel_left₀ hμ]; rfl
      · ext i j
        have hd : (of fun j _ => (L.vᴴ *ᵥ ψ) j : Matrix (Fin L.r) (Fin 1) ℂ) * diagonal (fun _ => μ) = of fun j _ => (μ • (L.vᴴ *ᵥ ψ)) j := by
          ext i j
          rw [Matrix.mul_diagonal, of_apply, of_apply, Pi.smul_apply, smul_eq_mul, mul_comm]
        have := congrFun hb i
        rw [hd, col_mulVec, col_mulVec, col_mulVec]
        change (h *ᵥ ψ) i + (L.v *ᵥ (μ⁻¹ • (uᴴ *ᵥ ψ))) i + (u *ᵥ (μ • (L.vᴴ *ᵥ ψ))) i = 0
        rw [mulVec_smul, mulVec_smul, mulVec_mulVec, mulVec_mulVec, ← show _ = (0 : ℂ) from this]
        simp only [Pi.add_apply]
        ring
    exact ⟨x, (hf.solution hμ x).mpr ⟨ψ, hψ, rfl, key⟩, key⟩

/-- `extract` works column by column. -/
theorem C108_columns (e : Numerics n) {h hop : Matrix (Fin n) (Fin n) ℂ} (he : e.Ok hop) {stab : Option (Option Bool × Bool)} {L : Linsys n}
    (hL : setupLinsys e h hop stab = .ok L) (hc : CutExact e hop) (hst : ∀ s0, stab = some (s0, true) → NoInfinite h hop) {k : ℕ}
    (Z : Matrix (Fin L.r ⊕ Fin L.r) (Fin k) ℂ) (l : Fin k → ℂ) (i : Fin n) (c : Fin k) : L.extract Z l i c = L.extract1 (l c) (fun j => Z j c) i := by
  obtain ⟨u, hf⟩ := setup_faithful e he hL hc hst
  exact hf.columns Z l i c

/-- C108, disagreement with the documentation: "The second element set to True forces Kwant to solve a generalized eigenvalue problem, and not to reduce it
to the regular one", but then the code *always* reduces it to a regular one, and does so without looking at the condition number. -/
theorem C108_forced (e : Numerics n) {h hop : Matrix (Fin n) (Fin n) ℂ} {s0 : Option Bool} {L : Linsys n}
    (hL : setupLinsys e h hop (some (s0, true)) = .ok L) : L.b = none := by
  rw [setupLinsys] at hL
  split at hL
  · cases hL
  dsimp only at hL
  split at hL
  · cases hL; rfl
  split at hL
  · cases hL; rfl
  · split at hL
    · cases hL
    · cases hL; rfl

end Kwant.Leads
