import Verif.Leads.Bloch
import Mathlib.LinearAlgebra.Matrix.Block
import Mathlib.LinearAlgebra.Matrix.PosDef

/-!
C110, C111: kwant/physics/leads.py, `StabilizedModes.selfenergy` (l.180-200): the self-energy solves the Dyson equation of the lead, and its anti-Hermitian
part is `W Wᴴ` with as many columns as there are outgoing propagating modes.

Simplifications: the columns of the arrays `vecs` and `vecslmbdainv` are indexed by a sum of three types: incoming propagating modes, outgoing propagating
modes, evanescent modes, in this order.  `scipy.linalg.solve` is an arbitrary function with a contract.
-/

set_option linter.unusedSectionVars false

namespace Kwant.Leads
open Matrix Complex
open scoped ComplexOrder

variable {n : ℕ}

/-- The attributes of `StabilizedModes` (l.141-178); `p` is `nmodes`. -/
structure StabModes (m r p q : ℕ) where
  vecs : Matrix (Fin r) ((Fin p ⊕ Fin p) ⊕ Fin q) ℂ
  vecslmbdainv : Matrix (Fin r) ((Fin p ⊕ Fin p) ⊕ Fin q) ℂ
  sqrtHop : Matrix (Fin m) (Fin r) ℂ

/-- The indices of the columns in `slice(self.nmodes, None)` (l.196) -/
def outIdx {p q : ℕ} : Fin p ⊕ Fin q → (Fin p ⊕ Fin p) ⊕ Fin q := Sum.elim (fun i => .inl (.inr i)) .inr

/-- The type of `la.solve` for a square matrix, whose rows and columns may be indexed by different types. -/
abbrev Solve (k l m : Type) := Matrix k l ℂ → Matrix k m ℂ → Matrix l m ℂ

/-- Contract of `la.solve`: the solution, if the matrix is invertible. -/
def SolveOk {k l m : Type} [Fintype k] [Fintype l] [DecidableEq k] [DecidableEq l] (solve : Solve k l m) : Prop :=
  ∀ (x : Matrix k l ℂ) (xi : Matrix l k ℂ) (b : Matrix k m ℂ), x * xi = 1 → xi * x = 1 → solve x b = xi * b

/-- `StabilizedModes.selfenergy` (l.180-200) -/
def selfenergy {m r p q : ℕ} (solve : Solve (Fin r) (Fin p ⊕ Fin q) (Fin m)) (s : StabModes m r p q) : Matrix (Fin m) (Fin m) ℂ :=
  s.sqrtHop * s.vecs.submatrix id outIdx * solve (s.vecslmbdainv.submatrix id outIdx) s.sqrtHopᴴ

/-! ### Specification -/

/-- Specification: the modes that leave the scattering region, i.e. the outgoing propagating modes (the second half of the propagating ones) and the evanescent
ones. -/
def outCols {p q : ℕ} : Fin p ⊕ Fin q → (Fin p ⊕ Fin p) ⊕ Fin q
  | .inl i => .inl (.inr i)
  | .inr j => .inr j

theorem outIdx_eq {p q : ℕ} : (outIdx : Fin p ⊕ Fin q → _) = outCols := by funext i; cases i <;> rfl


/-- The columns of `(X, Y)` are what `compute_block_modes` (l.873-911) selects as outgoing modes: propagating solutions, with eigenvalues of modulus one,
and a basis of the space of the solutions that decay in the outgoing direction, on which the inverse of the eigenvalue problem acts as an upper triangular
matrix with diagonal entries of modulus less than one.  (Outgoing modes have `|lmbdainv| >= 1`; infinite values are allowed.) -/
structure Outgoing (L : Linsys n) {p q : ℕ} (X Y : Matrix (Fin L.r) (Fin p ⊕ Fin q) ℂ) (lam : Fin p → ℂ) (E : Matrix (Fin q) (Fin q) ℂ) : Prop where
  unit : ∀ i, ‖lam i‖ = 1
  tri : ∀ i j, j < i → E i j = 0
  decay : ∀ i, ‖E i i‖ < 1
  prop : ∀ i, L.Solution (lam i) (Sum.elim (fun k => X k (.inl i)) (fun k => Y k (.inl i)))
  evan : L.Pencil (fromRows (X.submatrix id Sum.inr) (Y.submatrix id Sum.inr)) E 1

/-- The matrix of the current: `-i Yᴴ X` plus its Hermitian conjugate. -/
noncomputable def current {r : ℕ} {K : Type} (X Y : Matrix (Fin r) K ℂ) : Matrix K K ℂ := (-I) • (Yᴴ * X) + ((-I) • (Yᴴ * X))ᴴ

/-- The propagating modes with the same eigenvalue carry unit current in the outgoing direction and no current flows between them. -/
def UnitCurrent {r p q : ℕ} (X Y : Matrix (Fin r) (Fin p ⊕ Fin q) ℂ) (lam : Fin p → ℂ) : Prop :=
  ∀ i j, lam i = lam j → current X Y (.inl i) (.inl j) = if i = j then 1 else 0

/-! ### The Dyson equation -/

theorem pencil_iff_cols (L : Linsys n) {K : Type} [Fintype K] (Z : Matrix (Fin L.r ⊕ Fin L.r) K ℂ) (S T : Matrix K K ℂ) :
    L.Pencil Z S T ↔ ∃ b : Matrix (Fin L.r ⊕ Fin L.r) (Fin L.r ⊕ Fin L.r) ℂ, b = L.b.getD 1 ∧ L.a * (Z * S) = b * (Z * T) := by
  rw [Linsys.Pencil]
  cases hb : L.b with
  | none => simp
  | some b => simp

theorem solution_iff_getD (L : Linsys n) (μ : ℂ) (x : Fin L.r ⊕ Fin L.r → ℂ) : L.Solution μ x ↔ L.a *ᵥ x = μ • (L.b.getD 1 *ᵥ x) := by
  rw [Linsys.Solution]
  cases hb : L.b with
  | none => simp
  | some b => simp

theorem Outgoing.pencil {L : Linsys n} {p q : ℕ} {X Y : Matrix (Fin L.r) (Fin p ⊕ Fin q) ℂ} {lam : Fin p → ℂ} {E : Matrix (Fin q) (Fin q) ℂ}
    (ho : Outgoing L X Y lam E) : L.Pencil (fromRows X Y) (fromBlocks (diagonal fun i => (lam i)⁻¹) 0 0 E) 1 := by
  rw [pencil_iff_cols]
  refine ⟨_, rfl, ?_⟩
  have hev := ho.evan
  rw [pencil_iff_cols] at hev
  obtain ⟨b, rfl, hev⟩ := hev
  rw [Matrix.mul_one] at hev ⊢
  ext i c
  rcases c with c | c
  · have := ho.prop c
    rw [solution_iff_getD] at this
    have h2 := congrFun this i
    have hne : lam c ≠ 0 := by
      intro h0
      have := ho.unit c
      rw [h0, norm_zero] at this
      exact zero_ne_one this
    have hcol : ∀ k, (fromRows X Y * fromBlocks (diagonal fun i => (lam i)⁻¹) 0 0 E) k (.inl c) = (lam c)⁻¹ * fromRows X Y k (.inl c) := by
      intro k
      rw [Matrix.mul_apply, Fintype.sum_sum_type]
      simp [diagonal_apply, mul_comm]
    have hx : ∀ k, fromRows X Y k (.inl c) = Sum.elim (fun k => X k (.inl c)) (fun k => Y k (.inl c)) k := by
      intro k
      rcases k with k | k <;> rfl
    rw [Matrix.mul_apply, Matrix.mul_apply]
    simp only [hcol, hx]
    rw [mulVec, dotProduct, Pi.smul_apply, mulVec, dotProduct, smul_eq_mul] at h2
    have : ∀ k, L.a i k * ((lam c)⁻¹ * Sum.elim (fun k => X k (.inl c)) (fun k => Y k (.inl c)) k) =
        (lam c)⁻¹ * (L.a i k * Sum.elim (fun k => X k (.inl c)) (fun k => Y k (.inl c)) k) := fun k => by ring
    simp only [this]
    rw [← Finset.mul_sum, h2, inv_mul_cancel_left₀ hne]
  · have h2 := congrFun (congrFun hev i) c
    have hx : ∀ k, fromRows X Y k (.inr c) = fromRows (X.submatrix id Sum.inr) (Y.submatrix id Sum.inr) k c := by
      intro k
      rcases k with k | k <;> rfl
    have hx' : ∀ k (c : Fin q), fromRows X Y k (.inr c) = fromRows (X.submatrix id Sum.inr) (Y.submatrix id Sum.inr) k c := by
      intro k c
      rcases k with k | k <;> rfl
    have hcol : ∀ k, (fromRows X Y * fromBlocks (diagonal fun i => (lam i)⁻¹) 0 0 E) k (.inr c) =
        (fromRows (X.submatrix id Sum.inr) (Y.submatrix id Sum.inr) * E) k c := by
      intro k
      rw [Matrix.mul_apply, Fintype.sum_sum_type, Matrix.mul_apply]
      simp [hx']
    rw [Matrix.mul_apply, Matrix.mul_apply] at h2 ⊢
    simp only [hcol, hx]
    exact h2

/-- The algebra behind the Dyson equation. -/
theorem dyson_core {h hop : Matrix (Fin n) (Fin n) ℂ} {L : Linsys n} {u : Matrix (Fin n) (Fin L.r) ℂ} (hf : Faithful h hop L u) {K : Type} [Fintype K]
    [DecidableEq K] {X Y : Matrix (Fin L.r) K ℂ} {M : Matrix K K ℂ} (hp : L.Pencil (fromRows X Y) M 1) {Xi : Matrix K (Fin L.r) ℂ}
    (h1 : X * Xi = 1) (h2 : Xi * X = 1) : ∃ Φ, (h + L.v * Y * (Xi * L.vᴴ)) * Φ = -hop ∧ L.v * Y * (Xi * L.vᴴ) = hopᴴ * Φ := by
  obtain ⟨Ψ, e1, e2, e3⟩ := (hf.pencil X Y M 1).mp hp
  rw [Matrix.mul_one] at e2 e3
  refine ⟨Ψ * (Xi * L.vᴴ), ?_, ?_⟩
  · have : (h + L.v * Y * (Xi * L.vᴴ)) * Ψ = -(u * X) := by
      have h3 : L.v * Y * (Xi * L.vᴴ) * Ψ = L.v * (Y * M) := by
        rw [Matrix.mul_assoc, Matrix.mul_assoc Xi, ← e1, ← Matrix.mul_assoc Xi, h2, Matrix.one_mul, Matrix.mul_assoc]
      rw [Matrix.add_mul, h3, ← sub_eq_zero, ← e3]
      abel
    rw [← Matrix.mul_assoc, this, Matrix.neg_mul, Matrix.mul_assoc, ← Matrix.mul_assoc X, h1, Matrix.one_mul, hf.fact]
  · rw [hf.fact, conjTranspose_mul, conjTranspose_conjTranspose, Matrix.mul_assoc, e2, Matrix.mul_assoc L.v, Matrix.mul_assoc uᴴ]

/-- C110: the self-energy `Σ` of the lead solves the Dyson equation: there is `Φ` with `(-h - Σ) Φ = hop` and `Σ = hopᴴ Φ`. -/
theorem C110_dyson (e : Numerics n) {h hop : Matrix (Fin n) (Fin n) ℂ} (he : e.Ok hop) {stab : Option (Option Bool × Bool)} {L : Linsys n}
    (hL : setupLinsys e h hop stab = .ok L) (hc : CutExact e hop) (hst : ∀ s0, stab = some (s0, true) → NoInfinite h hop)
    {p q : ℕ} {solve : Solve (Fin L.r) (Fin p ⊕ Fin q) (Fin n)} (hs : SolveOk solve) (s : StabModes n L.r p q) (hv : s.sqrtHop = L.v) {lam : Fin p → ℂ} {E : Matrix (Fin q) (Fin q) ℂ}
    (ho : Outgoing L (s.vecslmbdainv.submatrix id outCols) (s.vecs.submatrix id outCols) lam E)
    {Xi : Matrix (Fin p ⊕ Fin q) (Fin L.r) ℂ} (h1 : s.vecslmbdainv.submatrix id outCols * Xi = 1) (h2 : Xi * s.vecslmbdainv.submatrix id outCols = 1) :
    ∃ Φ, (-h - selfenergy solve s) * Φ = hop ∧ selfenergy solve s = hopᴴ * Φ := by
  obtain ⟨u, hf⟩ := setup_faithful e he hL hc hst
  obtain ⟨Φ, e1, e2⟩ := dyson_core hf ho.pencil h1 h2
  refine ⟨Φ, ?_, ?_⟩
  · rw [selfenergy, outIdx_eq, hs _ Xi _ h1 h2, hv, ← neg_add', Matrix.neg_mul, e1, neg_neg]
  · rw [selfenergy, outIdx_eq, hs _ Xi _ h1 h2, hv, e2]

/-- C110, in the usual form: `Σ = hopᴴ G hop` with the surface Green's function `G = (-h - Σ)⁻¹`, if that exists. -/
theorem C110_green (e : Numerics n) {h hop : Matrix (Fin n) (Fin n) ℂ} (he : e.Ok hop) {stab : Option (Option Bool × Bool)} {L : Linsys n}
    (hL : setupLinsys e h hop stab = .ok L) (hc : CutExact e hop) (hst : ∀ s0, stab = some (s0, true) → NoInfinite h hop)
    {p q : ℕ} {solve : Solve (Fin L.r) (Fin p ⊕ Fin q) (Fin n)} (hs : SolveOk solve) (s : StabModes n L.r p q) (hv : s.sqrtHop = L.v) {lam : Fin p → ℂ} {E : Matrix (Fin q) (Fin q) ℂ}
    (ho : Outgoing L (s.vecslmbdainv.submatrix id outCols) (s.vecs.submatrix id outCols) lam E)
    {Xi : Matrix (Fin p ⊕ Fin q) (Fin L.r) ℂ} (h1 : s.vecslmbdainv.submatrix id outCols * Xi = 1) (h2 : Xi * s.vecslmbdainv.submatrix id outCols = 1)
    (hu : IsUnit (-h - selfenergy solve s).det) : selfenergy solve s = hopᴴ * (-h - selfenergy solve s)⁻¹ * hop := by
  obtain ⟨Φ, e1, e2⟩ := C110_dyson e he hL hc hst hs s hv ho h1 h2
  have : Φ = (-h - selfenergy solve s)⁻¹ * hop := by rw [← e1, Matrix.nonsing_inv_mul_cancel_left _ _ hu]
  rw [this, ← Matrix.mul_assoc] at e2
  exact e2

/-! ### Current conservation -/

theorem current_eq {r : ℕ} {K : Type} (X Y : Matrix (Fin r) K ℂ) : current X Y = I • (Xᴴ * Y - Yᴴ * X) := by
  rw [current, conjTranspose_smul, conjTranspose_mul, conjTranspose_conjTranspose, smul_sub]
  simp only [star_neg, star_def, conj_I, neg_neg, neg_smul]
  abel

theorem current_herm {r : ℕ} {K : Type} (X Y : Matrix (Fin r) K ℂ) : (current X Y)ᴴ = current X Y := by
  rw [current, conjTranspose_add, conjTranspose_conjTranspose, add_comm]

/-- The current does not depend on the position. -/
theorem current_conserved {h hop : Matrix (Fin n) (Fin n) ℂ} (hh : hᴴ = h) {L : Linsys n} {u : Matrix (Fin n) (Fin L.r) ℂ} (hf : Faithful h hop L u)
    {K : Type} [Fintype K] [DecidableEq K] {X Y : Matrix (Fin L.r) K ℂ} {S T : Matrix K K ℂ} (hp : L.Pencil (fromRows X Y) S T) :
    Sᴴ * current X Y * S = Tᴴ * current X Y * T := by
  obtain ⟨Ψ, e1, e2, e3⟩ := (hf.pencil X Y S T).mp hp
  have e1' : Ψᴴ * L.v = Sᴴ * Xᴴ := by rw [← conjTranspose_mul, e1, conjTranspose_mul, conjTranspose_conjTranspose]
  have e2' : Ψᴴ * u = Tᴴ * Yᴴ := by rw [← conjTranspose_mul, e2, conjTranspose_mul, conjTranspose_conjTranspose]
  have key : Ψᴴ * h * Ψ = -(Sᴴ * Xᴴ * (Y * S)) - Tᴴ * Yᴴ * (X * T) := by
    have : h * Ψ = -(L.v * (Y * S)) - u * (X * T) := by rw [← sub_eq_zero, ← e3]; abel
    rw [Matrix.mul_assoc, this, Matrix.mul_sub, Matrix.mul_neg, ← Matrix.mul_assoc Ψᴴ L.v, e1', ← Matrix.mul_assoc Ψᴴ u, e2']
  have keyH := congrArg conjTranspose key
  simp only [conjTranspose_mul, conjTranspose_conjTranspose, conjTranspose_sub, conjTranspose_neg, hh] at keyH
  rw [← Matrix.mul_assoc, key] at keyH
  rw [current_eq]
  simp only [Matrix.mul_smul, Matrix.smul_mul, Matrix.mul_sub, Matrix.sub_mul, Matrix.mul_assoc] at keyH ⊢
  congr 1
  rw [← sub_eq_zero] at keyH ⊢
  rw [← neg_eq_zero, ← keyH]
  abel

/-- Evanescent modes carry no current, and no current flows between modes with different eigenvalues. -/
theorem current_block {h hop : Matrix (Fin n) (Fin n) ℂ} (hh : hᴴ = h) {L : Linsys n} {u : Matrix (Fin n) (Fin L.r) ℂ} (hf : Faithful h hop L u)
    {p q : ℕ} {X Y : Matrix (Fin L.r) (Fin p ⊕ Fin q) ℂ} {lam : Fin p → ℂ} {E : Matrix (Fin q) (Fin q) ℂ} (ho : Outgoing L X Y lam E) :
    (∀ i j, lam i ≠ lam j → current X Y (.inl i) (.inl j) = 0) ∧ (∀ i j, current X Y (.inl i) (.inr j) = 0) ∧
    (∀ i j, current X Y (.inr i) (.inl j) = 0) ∧ ∀ i j, current X Y (.inr i) (.inr j) = 0 := by
  have hc := current_conserved hh hf ho.pencil
  rw [conjTranspose_one, Matrix.one_mul, Matrix.mul_one] at hc
  generalize hJ : current X Y = J at hc
  have hJH : Jᴴ = J := by rw [← hJ, current_herm]
  have hsum : ∀ a b, J a b = ∑ c, (∑ d, (starRingEnd ℂ) (fromBlocks (diagonal fun i => (lam i)⁻¹) 0 0 E d a) * J d c) *
      fromBlocks (diagonal fun i => (lam i)⁻¹) 0 0 E c b := by
    intro a b
    conv_lhs => rw [← hc]
    rw [Matrix.mul_apply]
    simp only [Matrix.mul_apply, conjTranspose_apply, star_def]
  have hlam : ∀ i, (starRingEnd ℂ) (lam i)⁻¹ = lam i := by
    intro i
    rw [map_inv₀, Complex.inv_def, Complex.conj_conj, Complex.normSq_conj, Complex.normSq_eq_norm_sq, ho.unit i]
    simp
  have hne : ∀ i, lam i ≠ 0 := by
    intro i h0
    have := ho.unit i
    rw [h0, norm_zero] at this
    exact zero_ne_one this
  have pp : ∀ i j, J (.inl i) (.inl j) = lam i * J (.inl i) (.inl j) * (lam j)⁻¹ := by
    intro i j
    conv_lhs => rw [hsum]
    simp [Fintype.sum_sum_type, diagonal_apply, apply_ite, ← map_inv₀, hlam]
  have pe : ∀ i j, J (.inl i) (.inr j) = ∑ c, lam i * J (.inl i) (.inr c) * E c j := by
    intro i j
    conv_lhs => rw [hsum]
    simp [Fintype.sum_sum_type, diagonal_apply, apply_ite, ← map_inv₀, hlam]
  have ee : ∀ i j, J (.inr i) (.inr j) = ∑ c, (∑ d, (starRingEnd ℂ) (E d i) * J (.inr d) (.inr c)) * E c j := by
    intro i j
    conv_lhs => rw [hsum]
    simp [Fintype.sum_sum_type]
  have small : ∀ z w : ℂ, ‖w‖ < 1 → z = w * z → z = 0 := by
    intro z w hw hz
    have : (1 - w) * z = 0 := by rw [sub_mul, one_mul, ← hz, sub_self]
    rcases mul_eq_zero.mp this with h0 | h0
    · exfalso
      rw [sub_eq_zero] at h0
      rw [← h0, norm_one] at hw
      exact lt_irrefl _ hw
    · exact h0
  have r1 : ∀ i j, J (.inl i) (.inr j) = 0 := by
    intro i j
    induction j using WellFoundedLT.induction with
    | ind j ih =>
      have := pe i j
      rw [Finset.sum_eq_single j] at this
      · refine small _ (lam i * E j j) ?_ (by rw [mul_right_comm]; exact this)
        rw [norm_mul, ho.unit, one_mul]
        exact ho.decay j
      · intro c _ hcj
        rcases lt_or_gt_of_ne hcj with hlt | hgt
        · rw [ih c hlt, mul_zero, zero_mul]
        · rw [ho.tri c j hgt, mul_zero]
      · intro h0
        exact absurd (Finset.mem_univ _) h0
  refine ⟨?_, r1, ?_, ?_⟩
  · intro i j hij
    have := pp i j
    have h2 : (lam i - lam j) * J (.inl i) (.inl j) = 0 := by
      have h3 : J (.inl i) (.inl j) * lam j = lam i * J (.inl i) (.inl j) := by
        conv_lhs => rw [this]
        rw [mul_assoc, inv_mul_cancel₀ (hne j), mul_one]
      rw [sub_mul, ← h3]; ring
    exact (mul_eq_zero.mp h2).resolve_left (sub_ne_zero.mpr hij)
  · intro i j
    rw [← hJH, conjTranspose_apply, r1, star_zero]
  · intro i j
    induction i using WellFoundedLT.induction generalizing j with
    | ind i ihi =>
      induction j using WellFoundedLT.induction with
      | ind j ihj =>
        have := ee i j
        rw [Finset.sum_eq_single j, Finset.sum_eq_single i] at this
        · refine small _ ((starRingEnd ℂ) (E i i) * E j j) ?_ (by rw [mul_right_comm]; exact this)
          rw [norm_mul, RCLike.norm_conj]
          calc ‖E i i‖ * ‖E j j‖ ≤ ‖E i i‖ * 1 := mul_le_mul_of_nonneg_left (ho.decay j).le (norm_nonneg _)
            _ < 1 := by rw [mul_one]; exact ho.decay i
        · intro d _ hd
          rcases lt_or_gt_of_ne hd with hlt | hgt
          · rw [ihi d hlt, mul_zero]
          · rw [ho.tri d i hgt, map_zero, zero_mul]
        · intro h0
          exact absurd (Finset.mem_univ _) h0
        · intro c _ hcj
          rcases lt_or_gt_of_ne hcj with hlt | hgt
          · rw [Finset.sum_eq_zero, zero_mul]
            intro d _
            rcases lt_trichotomy d i with h3 | h3 | h3
            · rw [ihi d h3, mul_zero]
            · rw [h3, ihj c hlt, mul_zero]
            · rw [ho.tri d i h3, map_zero, zero_mul]
          · rw [ho.tri c j hgt, mul_zero]
        · intro h0
          exact absurd (Finset.mem_univ _) h0

/-- C111: for a Hermitian lead whose outgoing propagating modes carry unit current, the broadening matrix `i (Σ - Σᴴ)` is `W Wᴴ`, where `W` has one column
for every outgoing propagating mode. -/
theorem C111_broadening (e : Numerics n) {h hop : Matrix (Fin n) (Fin n) ℂ} (he : e.Ok hop) (hh : h.IsHermitian) {stab : Option (Option Bool × Bool)}
    {L : Linsys n} (hL : setupLinsys e h hop stab = .ok L) (hc : CutExact e hop) (hst : ∀ s0, stab = some (s0, true) → NoInfinite h hop)
    {m p q : ℕ} {solve : Solve (Fin L.r) (Fin p ⊕ Fin q) (Fin m)} (hs : SolveOk solve) (s : StabModes m L.r p q) {lam : Fin p → ℂ} {E : Matrix (Fin q) (Fin q) ℂ}
    (ho : Outgoing L (s.vecslmbdainv.submatrix id outCols) (s.vecs.submatrix id outCols) lam E)
    (hcur : UnitCurrent (s.vecslmbdainv.submatrix id outCols) (s.vecs.submatrix id outCols) lam)
    {Xi : Matrix (Fin p ⊕ Fin q) (Fin L.r) ℂ} (h1 : s.vecslmbdainv.submatrix id outCols * Xi = 1) (h2 : Xi * s.vecslmbdainv.submatrix id outCols = 1) :
    ∃ W : Matrix (Fin m) (Fin p) ℂ, I • (selfenergy solve s - (selfenergy solve s)ᴴ) = W * Wᴴ := by
  obtain ⟨u, hf⟩ := setup_faithful e he hL hc hst
  obtain ⟨c1, c2, c3, c4⟩ := current_block hh hf ho
  set X := s.vecslmbdainv.submatrix id outCols
  set Y := s.vecs.submatrix id outCols
  have hJ : current X Y = fromBlocks 1 0 0 0 := by
    ext a b
    rcases a with a | a <;> rcases b with b | b
    · by_cases hab : lam a = lam b
      · rw [hcur a b hab, fromBlocks_apply₁₁, one_apply]
      · rw [c1 a b hab, fromBlocks_apply₁₁, one_apply, if_neg]
        intro h0
        exact hab (by rw [h0])
    · rw [c2, fromBlocks_apply₁₂]; rfl
    · rw [c3, fromBlocks_apply₂₁]; rfl
    · rw [c4, fromBlocks_apply₂₂]; rfl
  have hXi : Xiᴴ * Xᴴ = 1 := by rw [← conjTranspose_mul, h1, conjTranspose_one]
  refine ⟨s.sqrtHop * (Xi.submatrix Sum.inl id)ᴴ, ?_⟩
  rw [selfenergy, outIdx_eq, hs X Xi _ h1 h2]
  have step : I • (s.sqrtHop * Y * (Xi * s.sqrtHopᴴ) - (s.sqrtHop * Y * (Xi * s.sqrtHopᴴ))ᴴ) =
      s.sqrtHop * (Xiᴴ * current X Y * Xi) * s.sqrtHopᴴ := by
    rw [current_eq]
    simp only [conjTranspose_mul, conjTranspose_conjTranspose, Matrix.mul_smul, Matrix.smul_mul, Matrix.mul_sub, Matrix.sub_mul]
    congr 2
    · simp only [Matrix.mul_assoc]
      rw [← Matrix.mul_assoc Xiᴴ Xᴴ, hXi, Matrix.one_mul]
    · simp only [Matrix.mul_assoc]
      rw [← Matrix.mul_assoc X Xi, h1, Matrix.one_mul]
  rw [step, hJ]
  have hb : Xiᴴ * fromBlocks (1 : Matrix (Fin p) (Fin p) ℂ) 0 0 0 * Xi = (Xi.submatrix Sum.inl id)ᴴ * Xi.submatrix Sum.inl id := by
    ext a b
    rw [Matrix.mul_apply, Fintype.sum_sum_type, Matrix.mul_apply]
    simp [Matrix.mul_apply, Fintype.sum_sum_type, one_apply]
  rw [hb, conjTranspose_mul, conjTranspose_conjTranspose]
  simp only [Matrix.mul_assoc]

/-- C111: in particular the broadening matrix is positive semidefinite. -/
theorem C111_posSemidef (e : Numerics n) {h hop : Matrix (Fin n) (Fin n) ℂ} (he : e.Ok hop) (hh : h.IsHermitian) {stab : Option (Option Bool × Bool)}
    {L : Linsys n} (hL : setupLinsys e h hop stab = .ok L) (hc : CutExact e hop) (hst : ∀ s0, stab = some (s0, true) → NoInfinite h hop)
    {m p q : ℕ} {solve : Solve (Fin L.r) (Fin p ⊕ Fin q) (Fin m)} (hs : SolveOk solve) (s : StabModes m L.r p q) {lam : Fin p → ℂ} {E : Matrix (Fin q) (Fin q) ℂ}
    (ho : Outgoing L (s.vecslmbdainv.submatrix id outCols) (s.vecs.submatrix id outCols) lam E)
    (hcur : UnitCurrent (s.vecslmbdainv.submatrix id outCols) (s.vecs.submatrix id outCols) lam)
    {Xi : Matrix (Fin p ⊕ Fin q) (Fin L.r) ℂ} (h1 : s.vecslmbdainv.submatrix id outCols * Xi = 1) (h2 : Xi * s.vecslmbdainv.submatrix id outCols = 1) :
    (I • (selfenergy solve s - (selfenergy solve s)ᴴ)).PosSemidef := by
  obtain ⟨W, hW⟩ := C111_broadening e he hh hL hc hst hs s ho hcur h1 h2
  rw [hW]
  exact posSemidef_self_mul_conjTranspose W

end Kwant.Leads
