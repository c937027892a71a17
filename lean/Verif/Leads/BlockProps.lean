import Verif.Leads.Block

/-!
C113: the modes that `compute_block_modes` returns.
-/

set_option linter.unusedSectionVars false

namespace Kwant.Leads
open Matrix Complex
open scoped ComplexOrder

variable {n r : ℕ}

/-! ### Currents between two families of solutions -/

/-- The current between two families. -/
noncomputable def cross {K M : Type} (Z : Matrix (Fin r ⊕ Fin r) K ℂ) (W : Matrix (Fin r ⊕ Fin r) M ℂ) : Matrix K M ℂ :=
  I • (Z.toRows₁ᴴ * W.toRows₂ - Z.toRows₂ᴴ * W.toRows₁)

theorem cross_conserved {h hop : Matrix (Fin n) (Fin n) ℂ} (hh : hᴴ = h) {L : Linsys n} {u : Matrix (Fin n) (Fin L.r) ℂ} (hf : Faithful h hop L u)
    {K M : Type} [Fintype K] [DecidableEq K] [Fintype M] [DecidableEq M] {Z : Matrix (Fin L.r ⊕ Fin L.r) K ℂ} {S T : Matrix K K ℂ} (hp : L.Pencil Z S T)
    {W : Matrix (Fin L.r ⊕ Fin L.r) M ℂ} {S' T' : Matrix M M ℂ} (hp' : L.Pencil W S' T') : Sᴴ * cross Z W * S' = Tᴴ * cross Z W * T' := by
  rw [← fromRows_toRows Z] at hp
  rw [← fromRows_toRows W] at hp'
  rw [cross]
  generalize Z.toRows₁ = X at *
  generalize Z.toRows₂ = Y at *
  generalize W.toRows₁ = X' at *
  generalize W.toRows₂ = Y' at *
  obtain ⟨Ψ, e1, e2, e3⟩ := (hf.pencil X Y S T).mp hp
  obtain ⟨Φ, f1, f2, f3⟩ := (hf.pencil X' Y' S' T').mp hp'
  have e1' : Ψᴴ * L.v = Sᴴ * Xᴴ := by rw [← conjTranspose_mul, e1, conjTranspose_mul, conjTranspose_conjTranspose]
  have e2' : Ψᴴ * u = Tᴴ * Yᴴ := by rw [← conjTranspose_mul, e2, conjTranspose_mul, conjTranspose_conjTranspose]
  have f1' : Φᴴ * L.v = S'ᴴ * X'ᴴ := by rw [← conjTranspose_mul, f1, conjTranspose_mul, conjTranspose_conjTranspose]
  have f2' : Φᴴ * u = T'ᴴ * Y'ᴴ := by rw [← conjTranspose_mul, f2, conjTranspose_mul, conjTranspose_conjTranspose]
  have key : Ψᴴ * h * Φ = -(Sᴴ * Xᴴ * (Y' * S')) - Tᴴ * Yᴴ * (X' * T') := by
    have : h * Φ = -(L.v * (Y' * S')) - u * (X' * T') := by rw [← sub_eq_zero, ← f3]; abel
    rw [Matrix.mul_assoc, this, Matrix.mul_sub, Matrix.mul_neg, ← Matrix.mul_assoc Ψᴴ L.v, e1', ← Matrix.mul_assoc Ψᴴ u, e2']
  have key' : Φᴴ * h * Ψ = -(S'ᴴ * X'ᴴ * (Y * S)) - T'ᴴ * Y'ᴴ * (X * T) := by
    have : h * Ψ = -(L.v * (Y * S)) - u * (X * T) := by rw [← sub_eq_zero, ← e3]; abel
    rw [Matrix.mul_assoc, this, Matrix.mul_sub, Matrix.mul_neg, ← Matrix.mul_assoc Φᴴ L.v, f1', ← Matrix.mul_assoc Φᴴ u, f2']
  have keyH := congrArg conjTranspose key'
  simp only [conjTranspose_mul, conjTranspose_conjTranspose, conjTranspose_sub, conjTranspose_neg, hh] at keyH
  rw [← Matrix.mul_assoc, key] at keyH
  simp only [Matrix.mul_smul, Matrix.smul_mul, Matrix.mul_sub, Matrix.sub_mul, Matrix.mul_assoc] at keyH ⊢
  congr 1
  rw [← sub_eq_zero] at keyH ⊢
  rw [← neg_eq_zero, ← keyH]
  abel

/-- A matrix equation between triangular matrices whose only solution is zero. -/
theorem stein_zero {p q : ℕ} {A B : Matrix (Fin p) (Fin p) ℂ} {C D : Matrix (Fin q) (Fin q) ℂ} (hA : ∀ i j, j < i → A i j = 0) (hB : ∀ i j, j < i → B i j = 0)
    (hC : ∀ i j, j < i → C i j = 0) (hD : ∀ i j, j < i → D i j = 0) {M : Matrix (Fin p) (Fin q) ℂ} (h : Aᴴ * M * C = Bᴴ * M * D)
    (hne : ∀ i j, star (A i i) * C j j ≠ star (B i i) * D j j) : M = 0 := by
  have hsum : ∀ (A : Matrix (Fin p) (Fin p) ℂ) (C : Matrix (Fin q) (Fin q) ℂ), (∀ i j, j < i → A i j = 0) → (∀ i j, j < i → C i j = 0) → ∀ i j,
      (∀ d < i, ∀ c, M d c = 0) → (∀ c < j, M i c = 0) → (Aᴴ * M * C) i j = star (A i i) * C j j * M i j := by
    intro A C hA hC i j ihi ihj
    rw [Matrix.mul_apply, Finset.sum_eq_single j]
    · rw [Matrix.mul_apply, Finset.sum_eq_single i]
      · rw [conjTranspose_apply]; ring
      · intro d _ hd
        rcases lt_or_gt_of_ne hd with h1 | h1
        · rw [ihi d h1, mul_zero]
        · rw [conjTranspose_apply, hA d i h1, star_zero, zero_mul]
      · intro h0; exact absurd (Finset.mem_univ _) h0
    · intro c _ hc
      rcases lt_or_gt_of_ne hc with h1 | h1
      · rw [Matrix.mul_apply, Finset.sum_eq_zero, zero_mul]
        intro d _
        rcases lt_trichotomy d i with h2 | h2 | h2
        · rw [ihi d h2, mul_zero]
        · rw [h2, ihj c h1, mul_zero]
        · rw [conjTranspose_apply, hA d i h2, star_zero, zero_mul]
      · rw [hC c j h1, mul_zero]
    · intro h0; exact absurd (Finset.mem_univ _) h0
  ext i j
  induction i using WellFoundedLT.induction generalizing j with
  | ind i ihi =>
    induction j using WellFoundedLT.induction with
    | ind j ihj =>
      have := congrFun (congrFun h i) j
      rw [hsum A C hA hC i j (fun d hd c => ihi d hd c) ihj, hsum B D hB hD i j (fun d hd c => ihi d hd c) ihj] at this
      have h2 : (star (A i i) * C j j - star (B i i) * D j j) * M i j = 0 := by rw [sub_mul, this, sub_self]
      exact (mul_eq_zero.mp h2).resolve_left (sub_ne_zero.mpr (hne i j))

/-- The current form is not degenerate. -/
theorem cross_rank {k l : ℕ} {Z : Matrix (Fin r ⊕ Fin r) (Fin k) ℂ} {W : Matrix (Fin r ⊕ Fin r) (Fin l) ℂ} (hZ : Zᴴ * Z = 1) (hW : Wᴴ * W = 1) (h : cross Z W = 0) :
    k + l ≤ r + r := by
  let V : Matrix (Fin r ⊕ Fin r) (Fin l) ℂ := fromRows W.toRows₂ (-W.toRows₁)
  have hV : Zᴴ * V = 0 := by
    rw [cross, smul_eq_zero] at h
    have h1 := h.resolve_left I_ne_zero
    rw [← h1]
    conv_lhs => rw [← fromRows_toRows Z, conjTranspose_fromRows_eq_fromCols_conjTranspose, fromCols_mul_fromRows, Matrix.mul_neg, ← sub_eq_add_neg]
  have rZ : Zᴴ.rank = k := by
    rw [rank_conjTranspose, ← rank_conjTranspose_mul_self, hZ, rank_one, Fintype.card_fin]
  have rV : V.rank = l := by
    have : Vᴴ * V = 1 := by
      have hVH : Vᴴ = fromCols W.toRows₂ᴴ (-W.toRows₁ᴴ) := by rw [conjTranspose_fromRows_eq_fromCols_conjTranspose, conjTranspose_neg]
      rw [hVH, fromCols_mul_fromRows, ← hW]
      conv_rhs => rw [← fromRows_toRows W, conjTranspose_fromRows_eq_fromCols_conjTranspose, fromCols_mul_fromRows]
      rw [Matrix.neg_mul, Matrix.mul_neg, neg_neg, add_comm]
    rw [← rank_conjTranspose_mul_self, this, rank_one, Fintype.card_fin]
  have := rank_add_rank_le_card_of_mul_eq_zero hV
  rw [rZ, rV] at this
  simpa using this

/-! ### The ordered Schur decomposition -/

/-- The leading columns of a triangular product. -/
theorem lead_mul {R : Type} {k m : ℕ} (hk : k ≤ m) (q : Matrix R (Fin m) ℂ) {s : Matrix (Fin m) (Fin m) ℂ} (hs : ∀ i j, j < i → s i j = 0) :
    (q * s).submatrix id (Fin.castLE hk) = q.submatrix id (Fin.castLE hk) * s.submatrix (Fin.castLE hk) (Fin.castLE hk) := by
  ext x j
  simp only [submatrix_apply, id_eq, Matrix.mul_apply]
  have : ∑ i : Fin m, q x i * s i (Fin.castLE hk j) = ∑ i ∈ Finset.univ.map (Fin.castLEEmb hk), q x i * s i (Fin.castLE hk j) := by
    symm
    refine Finset.sum_subset (Finset.subset_univ _) fun i _ hi => ?_
    rw [hs, mul_zero]
    by_contra hcon
    apply hi
    have hlt : i.val < k := by
      have h1 : i.val ≤ j.val := by
        have := not_lt.mp hcon
        exact this
      have := j.2
      omega
    exact Finset.mem_map.mpr ⟨⟨i.val, hlt⟩, Finset.mem_univ _, rfl⟩
  rw [this, Finset.sum_map]
  rfl

theorem tri_inv {k : ℕ} {s : Matrix (Fin k) (Fin k) ℂ} (hs : ∀ i j, j < i → s i j = 0) (hd : ∀ i, s i i ≠ 0) : IsUnit s.det ∧ ∀ i j, j < i → s⁻¹ i j = 0 := by
  have hbt : s.BlockTriangular id := fun i j hij => hs i j hij
  have hu : IsUnit s.det := by
    rw [det_of_isUpperTriangular hbt, isUnit_iff_ne_zero]
    exact Finset.prod_ne_zero_iff.mpr fun i _ => hd i
  refine ⟨hu, ?_⟩
  haveI : Invertible s := s.invertibleOfIsUnitDet hu
  have := blockTriangular_inv_of_blockTriangular hbt
  exact fun i j hij => this hij

theorem tri_mul {k : ℕ} {s t : Matrix (Fin k) (Fin k) ℂ} (hs : ∀ i j, j < i → s i j = 0) (ht : ∀ i j, j < i → t i j = 0) :
    (∀ i j, j < i → (s * t) i j = 0) ∧ ∀ i, (s * t) i i = s i i * t i i := by
  constructor
  · intro i j hij
    rw [Matrix.mul_apply]
    refine Finset.sum_eq_zero fun c _ => ?_
    rcases lt_or_ge c i with h1 | h1
    · rw [hs i c h1, zero_mul]
    · rw [ht c j (lt_of_lt_of_le hij h1), mul_zero]
  · intro i
    rw [Matrix.mul_apply, Finset.sum_eq_single i]
    · intro c _ hc
      rcases lt_or_gt_of_ne hc with h1 | h1
      · rw [hs i c h1, zero_mul]
      · rw [ht c i h1, mul_zero]
    · intro h0; exact absurd (Finset.mem_univ _) h0

theorem selected_le (sel : Fin (r + r) → Bool) : (selected sel).length ≤ r + r := by
  have := List.length_filter_le sel (List.finRange (r + r))
  rw [List.length_finRange] at this
  exact this

/-- The leading columns of an ordered Schur decomposition span the space of the solutions with the selected eigenvalues, if these are not zero. -/
theorem deflate {L : Linsys n} {alpha beta : Fin (L.r + L.r) → ℂ} {sel : Fin (L.r + L.r) → Bool} {z : Matrix (Fin L.r ⊕ Fin L.r) (Fin (L.r + L.r)) ℂ}
    (hz : OrdSchurOk L.a (L.b.getD 1) alpha beta sel z) {k : ℕ} (hk : k ≤ L.r + L.r) (hks : k ≤ (selected sel).length) :
    (z.submatrix id (Fin.castLE hk))ᴴ * z.submatrix id (Fin.castLE hk) = 1 ∧
    ((∀ i, sel i → alpha i ≠ 0) → ∃ E : Matrix (Fin k) (Fin k) ℂ, (∀ i j, j < i → E i j = 0) ∧ (∀ i, ∃ j, sel j ∧ E i i = beta j / alpha j) ∧
      L.Pencil (z.submatrix id (Fin.castLE hk)) E 1) ∧
    ((∀ i, sel i → beta i ≠ 0) → ∃ E : Matrix (Fin k) (Fin k) ℂ, (∀ i j, j < i → E i j = 0) ∧ (∀ i, ∃ j, sel j ∧ E i i = alpha j / beta j) ∧
      L.Pencil (z.submatrix id (Fin.castLE hk)) 1 E) := by
  obtain ⟨h1, q, s, t, σ, ha, hb, hs, ht, hsd, htd, hσ⟩ := hz
  have ha' := lead_mul hk q hs
  have hb' := lead_mul hk q ht
  rw [← ha] at ha'
  rw [← hb] at hb'
  set c : Fin k → Fin (L.r + L.r) := Fin.castLE hk with hc
  have hcl : ∀ i j : Fin k, j < i → c j < c i := fun i j hij => hij
  have hs' : ∀ i j, j < i → s.submatrix c c i j = 0 := fun i j hij => hs _ _ (hcl i j hij)
  have ht' : ∀ i j, j < i → t.submatrix c c i j = 0 := fun i j hij => ht _ _ (hcl i j hij)
  have hsel : ∀ i, sel (σ (c i)) = true := fun i => (hσ (c i)).mpr (lt_of_lt_of_le i.2 hks)
  have az : L.a * z.submatrix id c = q.submatrix id c * s.submatrix c c := by
    rw [← ha']; rfl
  have bz : L.b.getD 1 * z.submatrix id c = q.submatrix id c * t.submatrix c c := by
    rw [← hb']; rfl
  refine ⟨?_, ?_, ?_⟩
  · ext i j
    have := congrFun (congrFun h1 (c i)) (c j)
    rw [Matrix.mul_apply] at this ⊢
    rw [one_apply] at this ⊢
    simp only [conjTranspose_apply, submatrix_apply, id_eq]
    simp only [conjTranspose_apply] at this
    rw [this]
    have : c i = c j ↔ i = j := ⟨fun h => Fin.castLE_injective hk h, fun h => by rw [h]⟩
    simp only [this]
  · intro hne
    have hd : ∀ i, s.submatrix c c i i ≠ 0 := fun i => by
      rw [submatrix_apply, hsd]; exact hne _ (hsel i)
    obtain ⟨hu, hi⟩ := tri_inv hs' hd
    obtain ⟨m1, m2⟩ := tri_mul hi ht'
    obtain ⟨_, m3⟩ := tri_mul hs' m1
    refine ⟨(s.submatrix c c)⁻¹ * t.submatrix c c, m1, fun i => ⟨σ (c i), hsel i, ?_⟩, ?_⟩
    · have := m3 i
      rw [← Matrix.mul_assoc, mul_nonsing_inv _ hu, Matrix.one_mul, submatrix_apply, submatrix_apply, htd, hsd] at this
      rw [this, mul_div_cancel_left₀ _ (hne _ (hsel i))]
    · rw [pencil_iff_cols]
      refine ⟨_, rfl, ?_⟩
      rw [Matrix.mul_one, bz, ← Matrix.mul_assoc, az, Matrix.mul_assoc, ← Matrix.mul_assoc (s.submatrix c c), mul_nonsing_inv _ hu, Matrix.one_mul]
  · intro hne
    have hd : ∀ i, t.submatrix c c i i ≠ 0 := fun i => by
      rw [submatrix_apply, htd]; exact hne _ (hsel i)
    obtain ⟨hu, hi⟩ := tri_inv ht' hd
    obtain ⟨m1, m2⟩ := tri_mul hi hs'
    obtain ⟨_, m3⟩ := tri_mul ht' m1
    refine ⟨(t.submatrix c c)⁻¹ * s.submatrix c c, m1, fun i => ⟨σ (c i), hsel i, ?_⟩, ?_⟩
    · have := m3 i
      rw [← Matrix.mul_assoc, mul_nonsing_inv _ hu, Matrix.one_mul, submatrix_apply, submatrix_apply, htd, hsd] at this
      rw [this, mul_div_cancel_left₀ _ (hne _ (hsel i))]
    · rw [pencil_iff_cols]
      refine ⟨_, rfl, ?_⟩
      rw [Matrix.mul_one, az, ← Matrix.mul_assoc, bz, Matrix.mul_assoc, ← Matrix.mul_assoc (t.submatrix c c), mul_nonsing_inv _ hu, Matrix.one_mul]

end Kwant.Leads
