import Verif.Leads.Block
import Mathlib.Analysis.InnerProductSpace.PiL2
import Mathlib.LinearAlgebra.Eigenspace.Zero
import Mathlib.LinearAlgebra.Matrix.Charpoly.Coeff
import Mathlib.LinearAlgebra.Matrix.Charpoly.Eigs
import Mathlib.Analysis.Complex.Polynomial.Basic

/-!
The contract of the eigenvalue routines used by `unified_eigenproblem` can be met: for every regular pencil there are generalized Schur decompositions with every order
of the eigenvalues.
-/

set_option linter.unusedSectionVars false

namespace Kwant.Leads
open Matrix Complex Polynomial

variable {r : ℕ}

/-! ### Schur decomposition with a given order of the eigenvalues -/

theorem exists_first_col {m : ℕ} (x : Fin (m + 1) → ℂ) (hx : x ≠ 0) : ∃ (U : Matrix (Fin (m + 1)) (Fin (m + 1)) ℂ) (c : ℂ), Uᴴ * U = 1 ∧ c ≠ 0 ∧ U.col 0 = c • x := by
  let y : EuclideanSpace ℂ (Fin (m + 1)) := WithLp.toLp 2 x
  have hy : y ≠ 0 := fun h => hx (by simpa [y] using h)
  let v : Fin (m + 1) → EuclideanSpace ℂ (Fin (m + 1)) := fun _ => ((‖y‖ : ℂ)⁻¹) • y
  have hny : ‖((‖y‖ : ℂ)⁻¹) • y‖ = 1 := by
    rw [norm_smul, norm_inv, Complex.norm_real, norm_norm, inv_mul_cancel₀ (norm_ne_zero_iff.mpr hy)]
  have hv : Orthonormal ℂ (Set.restrict ({0} : Set (Fin (m + 1))) v) := by
    refine ⟨fun i => hny, fun i j hij => ?_⟩
    exact absurd (Subsingleton.elim i j) hij
  obtain ⟨b, hb⟩ := hv.exists_orthonormalBasis_extension_of_card_eq (by simp)
  refine ⟨of fun i j => b j i, (‖y‖ : ℂ)⁻¹, ?_, ?_, ?_⟩
  · ext i j
    have := (orthonormal_iff_ite.mp b.orthonormal) i j
    rw [EuclideanSpace.inner_eq_star_dotProduct] at this
    rw [Matrix.mul_apply, one_apply, ← this]
    simp [dotProduct, mul_comm]
  · exact inv_ne_zero (by exact_mod_cast norm_ne_zero_iff.mpr hy)
  · ext i
    have := congrArg (fun z : EuclideanSpace ℂ (Fin (m + 1)) => z i) (hb 0 rfl)
    simpa [v, y] using this

theorem schur_order {m : ℕ} (M : Matrix (Fin m) (Fin m) ℂ) (τ : Fin m → ℂ) (h : M.charpoly = ∏ i, (X - C (τ i))) :
    ∃ U T : Matrix (Fin m) (Fin m) ℂ, Uᴴ * U = 1 ∧ M * U = U * T ∧ (∀ i j, j < i → T i j = 0) ∧ ∀ i, T i i = τ i := by
  induction m with
  | zero => exact ⟨1, 1, by simp, Subsingleton.elim _ _, fun i => i.elim0, fun i => i.elim0⟩
  | succ m ih =>
    -- the first eigenvector
    have hroot : (τ 0) ∈ spectrum ℂ M := by
      rw [Matrix.mem_spectrum_iff_isRoot_charpoly, h, IsRoot, eval_prod]
      exact Finset.prod_eq_zero (Finset.mem_univ 0) (by simp)
    have hdet : (M - τ 0 • (1 : Matrix (Fin (m + 1)) (Fin (m + 1)) ℂ)).det = 0 := by
      rw [spectrum.mem_iff, Matrix.isUnit_iff_isUnit_det, isUnit_iff_ne_zero, not_not, Algebra.algebraMap_eq_smul_one] at hroot
      rw [← neg_sub, det_neg, hroot, mul_zero]
    obtain ⟨x, hx0, hx⟩ := exists_mulVec_eq_zero_iff.mpr hdet
    rw [sub_mulVec, smul_mulVec, one_mulVec, sub_eq_zero] at hx
    obtain ⟨U, c, hU, hc, hcol⟩ := exists_first_col x hx0
    have hU' : U * Uᴴ = 1 := mul_eq_one_comm.mp hU
    set B := Uᴴ * M * U with hB
    have hMB : M * U = U * B := by
      rw [hB, ← Matrix.mul_assoc, ← Matrix.mul_assoc, hU', Matrix.one_mul]
    have hcol0 : ∀ i, B i 0 = if i = 0 then τ 0 else 0 := by
      intro i
      have : B.col 0 = τ 0 • (Uᴴ * U).col 0 := by
        rw [hB]
        change (fun i => _) = _
        ext i
        have e1 : (Uᴴ * M * U) i 0 = (Uᴴ *ᵥ (M *ᵥ U.col 0)) i := by
          rw [mulVec_mulVec]
          rfl
        have e2 : (Uᴴ * U).col 0 = Uᴴ *ᵥ U.col 0 := rfl
        rw [e2]
        change (Uᴴ * M * U) i 0 = _
        rw [e1, hcol, mulVec_smul, hx, smul_comm, mulVec_smul]
      have h2 := congrFun this i
      rw [hU] at h2
      change B i 0 = τ 0 • (1 : Matrix (Fin (m + 1)) (Fin (m + 1)) ℂ) i 0 at h2
      rw [h2, one_apply]
      split <;> simp
    let B' := B.submatrix Fin.succ Fin.succ
    have hch : B.charpoly = (X - C (τ 0)) * B'.charpoly := by
      rw [Matrix.charpoly, det_succ_column_zero, Fin.sum_univ_succ, Finset.sum_eq_zero]
      · have h3 : B.charmatrix.submatrix (Fin.succAbove 0) Fin.succ = B'.charmatrix := by
          ext i j : 2
          rw [submatrix_apply, Fin.succAbove_zero, charmatrix_apply, charmatrix_apply, diagonal_apply, diagonal_apply]
          simp [B']
        rw [h3, charmatrix_apply, hcol0]
        simp [Matrix.charpoly]
      · intro i _
        rw [charmatrix_apply, hcol0]
        simp [Fin.succ_ne_zero]
    have hsim : B.charpoly = M.charpoly := by
      have : (U⁻¹ * M * U).charpoly = M.charpoly := by
        have hu : IsUnit U := (Matrix.isUnit_iff_isUnit_det U).mpr (isUnit_det_of_left_inverse hU)
        have := Matrix.charpoly_units_conj' hu.unit M
        simpa using this
      rwa [inv_eq_left_inv hU] at this
    have hch' : B'.charpoly = ∏ i : Fin m, (X - C (τ i.succ)) := by
      have h3 : (X - C (τ 0)) * B'.charpoly = (X - C (τ 0)) * ∏ i : Fin m, (X - C (τ i.succ)) := by
        rw [← hch, hsim, h, Fin.prod_univ_succ]
      exact mul_left_cancel₀ (X_sub_C_ne_zero _) h3
    obtain ⟨V, S, hV, hVS, hS, hd⟩ := ih B' (fun i => τ i.succ) hch'
    -- the unitary matrix 1 ⊕ V
    let W : Matrix (Fin (m + 1)) (Fin (m + 1)) ℂ := of fun i j => Fin.cases (Fin.cases 1 (fun _ => 0) j) (fun i => Fin.cases 0 (fun j => V i j) j) i
    let T : Matrix (Fin (m + 1)) (Fin (m + 1)) ℂ := of fun i j => Fin.cases (Fin.cases (τ 0) (fun j => ∑ k, B 0 (Fin.succ k) * V k j) j)
      (fun i => Fin.cases 0 (fun j => S i j) j) i
    refine ⟨U * W, T, ?_, ?_, ?_, ?_⟩
    · have hW : Wᴴ * W = 1 := by
        ext i j
        rw [Matrix.mul_apply, Fin.sum_univ_succ]
        refine Fin.cases ?_ (fun i => ?_) i <;> refine Fin.cases ?_ (fun j => ?_) j
        · simp [W]
        · simp [W, one_apply, (Fin.succ_ne_zero j).symm]
        · simp [W, one_apply]
        · have := congrFun (congrFun hV i) j
          rw [Matrix.mul_apply, one_apply] at this
          rw [one_apply]
          simp only [Fin.succ_inj]
          rw [← this]
          simp [W, conjTranspose_apply]
      rw [conjTranspose_mul, Matrix.mul_assoc, ← Matrix.mul_assoc Uᴴ, hU, Matrix.one_mul, hW]
    · have hWT : B * W = W * T := ?_
      · rw [← Matrix.mul_assoc, hMB, Matrix.mul_assoc U B W, Matrix.mul_assoc U W T, hWT]
      ext i j
      rw [Matrix.mul_apply, Matrix.mul_apply, Fin.sum_univ_succ, Fin.sum_univ_succ]
      refine Fin.cases ?_ (fun i => ?_) i <;> refine Fin.cases ?_ (fun j => ?_) j
      · rw [hcol0]; simp [W, T]
      · simp [W, T]
      · rw [hcol0]; simp [W, T, Fin.succ_ne_zero]
      · have := congrFun (congrFun hVS i) j
        rw [Matrix.mul_apply, Matrix.mul_apply] at this
        simp [W, T]
        exact this
    · intro i j
      refine Fin.cases ?_ (fun i => ?_) i <;> refine Fin.cases ?_ (fun j => ?_) j
      · intro h; exact absurd h (lt_irrefl _)
      · intro h; exact absurd h (Fin.not_lt_zero _)
      · intro _; simp [T]
      · intro h; simp [T]; exact hS i j (Fin.succ_lt_succ_iff.mp h)
    · intro i
      refine Fin.cases ?_ (fun i => ?_) i
      · simp [T]
      · simp [T]; exact hd i

theorem exists_roots {m : ℕ} (M : Matrix (Fin m) (Fin m) ℂ) : ∃ τ : Fin m → ℂ, M.charpoly = ∏ i, (X - C (τ i)) := by
  have hs := (IsAlgClosed.splits M.charpoly).eq_prod_roots_of_monic (charpoly_monic M)
  have hcard : M.charpoly.roots.toList.length = m := by
    rw [Multiset.length_toList, (IsAlgClosed.splits M.charpoly).natDegree_eq_card_roots.symm, charpoly_natDegree_eq_dim, Fintype.card_fin]
  refine ⟨fun i => M.charpoly.roots.toList.get (Fin.cast hcard.symm i), ?_⟩
  conv_lhs => rw [hs, ← Multiset.coe_toList M.charpoly.roots, Multiset.map_coe, Multiset.prod_coe]
  rw [← List.prod_ofFn]
  congr 1
  apply List.ext_get
  · simp [hcard]
  · intro i h1 h2
    simp

/-! ### Orders -/

theorem exists_order (sel : Fin (r + r) → Bool) : ∃ σ : Equiv.Perm (Fin (r + r)), ∀ i, sel (σ i) = true ↔ i.val < (selected sel).length := by
  set l := selected sel ++ selected fun i => !sel i with hl
  have hp : l.Perm (List.finRange (r + r)) := by
    rw [hl, selected, selected]
    exact List.filter_append_perm _ _
  have hlen : l.length = r + r := by rw [hp.length_eq, List.length_finRange]
  have hnd : l.Nodup := hp.nodup_iff.mpr (List.nodup_finRange _)
  let e := hnd.getEquivOfForallMemList l fun x => hp.mem_iff.mpr (List.mem_finRange x)
  refine ⟨(finCongr hlen.symm).trans e, fun i => ?_⟩
  have he : ((finCongr hlen.symm).trans e) i = l[i.val]'(by omega) := rfl
  rw [he]
  by_cases h : i.val < (selected sel).length
  · have : l[i.val]'(by omega) = (selected sel)[i.val] := List.getElem_append_left h
    rw [this]
    have h2 : (selected sel)[i.val] ∈ selected sel := List.getElem_mem h
    simp only [h, iff_true]
    simpa [selected] using (List.mem_filter.mp h2).2
  · have hlt : i.val - (selected sel).length < (selected fun i => !sel i).length := by
      have := hlen
      rw [hl, List.length_append] at this
      omega
    have : l[i.val]'(by omega) = (selected fun i => !sel i)[i.val - (selected sel).length] := List.getElem_append_right (by omega)
    rw [this]
    have h2 : (selected fun i => !sel i)[i.val - (selected sel).length] ∈ selected fun i => !sel i := List.getElem_mem hlt
    have h3 := (List.mem_filter.mp h2).2
    simp only [h, iff_false]
    simpa using h3

/-! ### Eigenvectors -/

theorem card_roots {m : ℕ} {M : Matrix (Fin m) (Fin m) ℂ} {τ : Fin m → ℂ} (h : M.charpoly = ∏ i, (X - C (τ i))) (t : ℂ) :
    M.charpoly.rootMultiplicity t = Fintype.card {i // τ i = t} := by
  classical
  have h1 : (∏ i, (X - C (τ i))) = (Multiset.map (fun a => X - C a) (Multiset.map τ Finset.univ.val)).prod := by
    rw [Multiset.map_map]
    rfl
  rw [← Polynomial.count_roots, h, h1, roots_multiset_prod_X_sub_C, Multiset.count_map, Fintype.card_subtype]
  change (Finset.univ.filter fun i => t = τ i).card = _
  simp only [eq_comm]

/-- Eigenvectors for all eigenvalues; those of a non-defective eigenvalue form a basis of its eigenspace. -/
theorem exists_evecs {m : ℕ} (M : Matrix (Fin m) (Fin m) ℂ) (τ : Fin m → ℂ) (h : M.charpoly = ∏ i, (X - C (τ i))) : ∃ w : Fin m → Fin m → ℂ,
    (∀ i, M *ᵥ w i = τ i • w i) ∧ ∀ t, (∀ x, M *ᵥ (M *ᵥ x - t • x) = t • (M *ᵥ x - t • x) → M *ᵥ x = t • x) →
      LinearIndependent ℂ (fun i : {i // τ i = t} => w i) ∧ ∀ x, M *ᵥ x = t • x → x ∈ Submodule.span ℂ (Set.range fun i : {i // τ i = t} => w i) := by
  classical
  let φ : Module.End ℂ (Fin m → ℂ) := Matrix.toLin' M
  have hmem : ∀ t x, x ∈ φ.eigenspace t ↔ M *ᵥ x = t • x := fun t x => by
    rw [Module.End.mem_eigenspace_iff, Matrix.toLin'_apply]
  have hw : ∀ t, ∃ w : {i // τ i = t} → Fin m → ℂ, (∀ i, M *ᵥ w i = t • w i) ∧ ((∀ x, M *ᵥ (M *ᵥ x - t • x) = t • (M *ᵥ x - t • x) → M *ᵥ x = t • x) →
      LinearIndependent ℂ w ∧ ∀ x, M *ᵥ x = t • x → x ∈ Submodule.span ℂ (Set.range w)) := by
    intro t
    by_cases hs : ∀ x, M *ᵥ (M *ᵥ x - t • x) = t • (M *ᵥ x - t • x) → M *ᵥ x = t • x
    · have hgen : φ.maxGenEigenspace t = φ.eigenspace t := by
        refine le_antisymm ?_ (Module.End.eigenspace_le_maxGenEigenspace ..)
        have key : ∀ (k : ℕ) x, ((φ - t • 1) ^ k) x = 0 → x ∈ φ.eigenspace t := by
          intro k
          induction k with
          | zero =>
            intro x hx
            rw [pow_zero, Module.End.one_apply] at hx
            rw [hx]
            exact Submodule.zero_mem _
          | succ k ih =>
            intro x hx
            rw [pow_succ, Module.End.mul_apply] at hx
            have := (hmem t _).mp (ih _ hx)
            exact (hmem t x).mpr (hs x this)
        intro x hx
        obtain ⟨k, hk⟩ := (Module.End.mem_maxGenEigenspace φ t x).mp hx
        exact key k x hk
      have hdim : Module.finrank ℂ (φ.eigenspace t) = Fintype.card {i // τ i = t} := by
        rw [← hgen, LinearMap.finrank_maxGenEigenspace_eq, ← card_roots h t, Matrix.charpoly_toLin']
      let b := (Module.finBasisOfFinrankEq ℂ (φ.eigenspace t) hdim).reindex (Fintype.equivFin _).symm
      refine ⟨fun i => (b i : Fin m → ℂ), fun i => (hmem t _).mp (b i).2, fun _ => ⟨?_, ?_⟩⟩
      · exact b.linearIndependent.map' (Submodule.subtype _) (Submodule.ker_subtype _)
      · intro x hx
        have h1 : (⟨x, (hmem t x).mpr hx⟩ : φ.eigenspace t) ∈ Submodule.span ℂ (Set.range b) := by rw [b.span_eq]; trivial
        have h2 := Submodule.mem_map_of_mem (f := Submodule.subtype (φ.eigenspace t)) h1
        rw [Submodule.map_span, ← Set.range_comp] at h2
        exact h2
    · exact ⟨fun _ => 0, fun i => by simp, fun h => absurd h hs⟩
  choose w h1 h2 using hw
  refine ⟨fun i => w (τ i) ⟨i, rfl⟩, fun i => h1 _ _, fun t ht => ?_⟩
  have : (fun i : {i // τ i = t} => w (τ i) ⟨i, rfl⟩) = w t := by
    ext ⟨i, rfl⟩ : 1
    rfl
  rw [this]
  exact h2 t ht

/-! ### The contract -/

theorem exists_schur_sum (M : Matrix (Fin r ⊕ Fin r) (Fin r ⊕ Fin r) ℂ) : ∃ τ : Fin (r + r) → ℂ,
    (∀ σ : Equiv.Perm (Fin (r + r)), ∃ (z : Matrix (Fin r ⊕ Fin r) (Fin (r + r)) ℂ) (T : Matrix (Fin (r + r)) (Fin (r + r)) ℂ), zᴴ * z = 1 ∧ M * z = z * T ∧
      (∀ i j, j < i → T i j = 0) ∧ ∀ i, T i i = τ (σ i)) ∧
    ∃ w : Fin (r + r) → Fin r ⊕ Fin r → ℂ, (∀ i, M *ᵥ w i = τ i • w i) ∧ ∀ t, (∀ x, M *ᵥ (M *ᵥ x - t • x) = t • (M *ᵥ x - t • x) → M *ᵥ x = t • x) →
      LinearIndependent ℂ (fun i : {i // τ i = t} => w i) ∧ ∀ x, M *ᵥ x = t • x → x ∈ Submodule.span ℂ (Set.range fun i : {i // τ i = t} => w i) := by
  let e : Fin (r + r) ≃ Fin r ⊕ Fin r := finSumFinEquiv.symm
  let M' := M.submatrix e e
  have hM : M'.submatrix e.symm e.symm = M := by ext i j; simp [M']
  obtain ⟨τ, hτ⟩ := exists_roots M'
  refine ⟨τ, fun σ => ?_, ?_⟩
  · obtain ⟨U, T, h1, h2, h3, h4⟩ := schur_order M' (fun i => τ (σ i)) (by rw [hτ]; exact (Equiv.prod_comp σ fun i => X - C (τ i)).symm)
    refine ⟨U.submatrix e.symm id, T, ?_, ?_, h3, h4⟩
    · rw [conjTranspose_submatrix, submatrix_mul_equiv, h1]
      rfl
    · have : U.submatrix e.symm id * T = (U * T).submatrix e.symm id := rfl
      rw [this, ← h2, ← submatrix_mul_equiv _ _ _ e.symm, hM]
  · obtain ⟨w, h1, h2⟩ := exists_evecs M' τ hτ
    have hmul : ∀ x : Fin (r + r) → ℂ, M *ᵥ (x ∘ e.symm) = (M' *ᵥ x) ∘ e.symm := by
      intro x
      conv_lhs => rw [← hM]
      rw [submatrix_mulVec_equiv]
      congr 2
      ext i
      simp
    let L : (Fin (r + r) → ℂ) ≃ₗ[ℂ] (Fin r ⊕ Fin r → ℂ) := LinearEquiv.funCongrLeft ℂ ℂ e.symm
    have hL : ∀ x, L x = x ∘ e.symm := fun x => rfl
    refine ⟨fun i => L (w i), fun i => ?_, fun t ht => ?_⟩
    · change M *ᵥ (w i ∘ e.symm) = _
      rw [hmul, h1]
      rfl
    · obtain ⟨h3, h4⟩ := h2 t fun x hx => by
        have hx' := ht (L x)
        rw [hL, hmul] at hx'
        have h5 : (M' *ᵥ x) ∘ e.symm - t • x ∘ e.symm = (M' *ᵥ x - t • x) ∘ e.symm := rfl
        rw [h5, hmul] at hx'
        have h6 := hx' (congrArg (· ∘ e.symm) hx)
        exact L.injective h6
      refine ⟨h3.map' L.toLinearMap (LinearEquiv.ker L), fun x hx => ?_⟩
      have h5 : M' *ᵥ (L.symm x) = t • L.symm x := by
        apply L.injective
        change (M' *ᵥ L.symm x) ∘ e.symm = _
        rw [← hmul]
        change M *ᵥ (L (L.symm x)) = _
        rw [map_smul, L.apply_symm_apply, hx]
      have h6 := Submodule.mem_map_of_mem (f := L.toLinearMap) (h4 _ h5)
      rw [Submodule.map_span, ← Set.range_comp] at h6
      have h7 : L.toLinearMap (L.symm x) = x := L.apply_symm_apply x
      rw [h7] at h6
      exact h6

/-- A pencil that consists of two linear functions of one matrix. -/
theorem eig_of (a b K Ki M : Matrix (Fin r ⊕ Fin r) (Fin r ⊕ Fin r) ℂ) (p q p' q' : ℂ) (hK : Ki * K = 1) (ha : a = K * (p • 1 + q • M)) (hb : b = K * (p' • 1 + q' • M))
    (hd : p * q' - q * p' ≠ 0) : ∃ s : Eig r, EigOk a b s ∧ ∃ τ : Fin (r + r) → ℂ, s.beta = fun i => p' + q' * τ i := by
  obtain ⟨τ, h1, w, h2, h3⟩ := exists_schur_sum M
  choose z T z1 z2 z3 z4 using h1
  choose σ hσ using exists_order (r := r)
  have hKinj : ∀ x, K *ᵥ x = 0 → x = 0 := by
    intro x hx
    have := congrArg (Ki *ᵥ ·) hx
    simpa [mulVec_mulVec, hK] using this
  have ax : ∀ x, a *ᵥ x = K *ᵥ (p • x + q • (M *ᵥ x)) := by
    intro x
    rw [ha, ← mulVec_mulVec, add_mulVec, smul_mulVec, smul_mulVec, one_mulVec]
  have bx : ∀ x, b *ᵥ x = K *ᵥ (p' • x + q' • (M *ᵥ x)) := by
    intro x
    rw [hb, ← mulVec_mulVec, add_mulVec, smul_mulVec, smul_mulVec, one_mulVec]
  have hdiff : ∀ μ x, a *ᵥ x = μ • (b *ᵥ x) ↔ (q - μ * q') • (M *ᵥ x) = (μ * p' - p) • x := by
    intro μ x
    rw [ax, bx, ← mulVec_smul K, ← sub_eq_zero, ← mulVec_sub]
    constructor
    · intro h
      have := hKinj _ h
      ext i
      have := congrFun this i
      simp only [Pi.sub_apply, Pi.add_apply, Pi.smul_apply, smul_eq_mul, Pi.zero_apply] at this ⊢
      linear_combination this
    · intro h
      have : p • x + q • (M *ᵥ x) - μ • (p' • x + q' • (M *ᵥ x)) = 0 := by
        ext i
        have := congrFun h i
        simp only [Pi.sub_apply, Pi.add_apply, Pi.smul_apply, smul_eq_mul, Pi.zero_apply] at this ⊢
        linear_combination this
      rw [this, mulVec_zero]
  have hpos : ∀ μ i, p + q * τ i = μ * (p' + q' * τ i) ↔ (q - μ * q') * τ i = μ * p' - p := by
    intro μ i
    constructor <;> intro h <;> linear_combination h
  have hinf : ∀ μ, q - μ * q' = 0 → μ * p' - p ≠ 0 := by
    intro μ h4 h5
    apply hd
    linear_combination p' * (-h4) - q' * h5
  have hfin : ∀ μ, q - μ * q' ≠ 0 → Semisimple a b μ → ∀ x, M *ᵥ (M *ᵥ x - ((μ * p' - p) / (q - μ * q')) • x) =
      ((μ * p' - p) / (q - μ * q')) • (M *ᵥ x - ((μ * p' - p) / (q - μ * q')) • x) → M *ᵥ x = ((μ * p' - p) / (q - μ * q')) • x := by
    intro μ h4 hs x hx
    set t := (μ * p' - p) / (q - μ * q') with ht
    have ht' : (q - μ * q') * t = μ * p' - p := by rw [ht, mul_div_cancel₀ _ h4]
    set x' := M *ᵥ x - t • x with hx'
    have h5 : a *ᵥ x' = μ • (b *ᵥ x') := by
      rw [hdiff, hx, smul_smul, ht']
    have hne : p' + q' * t ≠ 0 := by
      intro h6
      apply hd
      linear_combination -(q - μ * q') * h6 + q' * ht'
    set c := (p' + q' * t) / (q - μ * q') with hc
    have hc' : (q - μ * q') * c = p' + q' * t := by rw [hc, mul_div_cancel₀ _ h4]
    have h6 : a *ᵥ (c • x) = μ • (b *ᵥ (c • x)) + b *ᵥ x' := by
      rw [ax, bx, bx, hx, ← mulVec_smul K, ← mulVec_add]
      congr 1
      ext i
      have h7 : x' i = (M *ᵥ x) i - t * x i := rfl
      simp only [mulVec_smul, Pi.add_apply, Pi.smul_apply, smul_eq_mul]
      rw [h7]
      linear_combination ((M *ᵥ x) i - t * x i) * hc' + c * x i * ht'
    have h8 := hs x' (c • x) h5 h6
    rw [bx, hx] at h8
    have h9 := hKinj _ h8
    have h10 : x' = 0 := by
      ext i
      have := congrFun h9 i
      simp only [Pi.add_apply, Pi.smul_apply, smul_eq_mul, Pi.zero_apply] at this
      have h11 : (p' + q' * t) * x' i = 0 := by linear_combination this
      exact (mul_eq_zero.mp h11).resolve_left hne
    exact sub_eq_zero.mp h10
  refine ⟨⟨fun i => p + q * τ i, fun i => p' + q' * τ i, fun l => of fun x j => w (l.get j) x, fun sel => z (σ sel)⟩, ⟨fun _ sel => ?_, fun _ l hl => ?_⟩, τ, rfl⟩
  · refine ⟨z1 _, K * z (σ sel), p • 1 + q • T (σ sel), p' • 1 + q' • T (σ sel), σ sel, ?_, ?_, ?_, ?_, ?_, ?_, hσ sel⟩
    · change a * z (σ sel) = _
      rw [ha, Matrix.mul_assoc, Matrix.mul_assoc, Matrix.add_mul, Matrix.smul_mul, Matrix.smul_mul, z2, Matrix.one_mul, Matrix.mul_add (z (σ sel)), Matrix.mul_smul (z (σ sel)),
        Matrix.mul_smul (z (σ sel)), Matrix.mul_one]
    · change b * z (σ sel) = _
      rw [hb, Matrix.mul_assoc, Matrix.mul_assoc, Matrix.add_mul, Matrix.smul_mul, Matrix.smul_mul, z2, Matrix.one_mul, Matrix.mul_add (z (σ sel)), Matrix.mul_smul (z (σ sel)),
        Matrix.mul_smul (z (σ sel)), Matrix.mul_one]
    · intro i j hij
      simp [z3 (σ sel) i j hij, one_apply_ne (ne_of_gt hij)]
    · intro i j hij
      simp [z3 (σ sel) i j hij, one_apply_ne (ne_of_gt hij)]
    · intro i
      simp [z4]
    · intro i
      simp [z4]
  · have hcol : ∀ i, (of fun x j => w (l.get j) x : Matrix (Fin r ⊕ Fin r) (Fin l.length) ℂ).col i = w (l.get i) := fun i => rfl
    have hinj : Function.Injective l.get := List.nodup_iff_injective_get.mp hl
    have hsum : ∀ c : Fin l.length → ℂ, (of fun x j => w (l.get j) x : Matrix (Fin r ⊕ Fin r) (Fin l.length) ℂ) *ᵥ c = ∑ j, c j • w (l.get j) := by
      intro c
      ext x
      simp [mulVec, dotProduct, mul_comm]
    refine ⟨fun i => ?_, fun μ hs c hc h0 => ?_, fun μ hs hall x hx => ?_⟩
    · rw [hcol, ax, bx, h2, ← mulVec_smul, ← mulVec_smul]
      congr 1
      ext x
      simp only [Pi.add_apply, Pi.smul_apply, smul_eq_mul]
      ring
    · simp only [ne_eq, hpos] at hc
      by_cases h4 : q - μ * q' = 0
      · ext i
        refine hc i ?_
        rw [h4, zero_mul]
        exact (hinf μ h4).symm
      · set t := (μ * p' - p) / (q - μ * q') with ht
        have hiff : ∀ i, (q - μ * q') * τ i = μ * p' - p ↔ τ i = t := by
          intro i
          rw [ht, eq_div_iff h4, mul_comm]
        simp only [hiff] at hc
        obtain ⟨hli, _⟩ := h3 t (hfin μ h4 hs)
        rw [hsum] at h0
        -- the positions with this eigenvalue
        let g : {j : Fin l.length // τ (l.get j) = t} → {i // τ i = t} := fun j => ⟨l.get j.1, j.2⟩
        have hg : Function.Injective g := fun i j hij => Subtype.ext (hinj (congrArg Subtype.val hij))
        have hli' := hli.comp g hg
        rw [Fintype.linearIndependent_iff] at hli'
        have h5 := hli' (fun j => c j.1) (by
          rw [← h0, ← Fintype.sum_subtype_add_sum_subtype (fun j => τ (l.get j) = t) fun j => c j • w (l.get j)]
          have : ∑ x : {j // ¬ τ (l.get j) = t}, c x.1 • w (l.get x.1) = 0 := Finset.sum_eq_zero fun x _ => by rw [hc x.1 x.2, zero_smul]
          rw [this, add_zero]
          rfl)
        ext i
        by_cases hi : τ (l.get i) = t
        · exact h5 ⟨i, hi⟩
        · exact hc i hi
    · by_cases h4 : q - μ * q' = 0
      · rw [hdiff, h4, zero_smul] at hx
        have h5 : x = 0 := (smul_eq_zero.mp hx.symm).resolve_left (hinf μ h4)
        exact ⟨0, fun _ _ => rfl, by rw [mulVec_zero, h5]⟩
      · set t := (μ * p' - p) / (q - μ * q') with ht
        have hiff : ∀ i, (q - μ * q') * τ i = μ * p' - p ↔ τ i = t := by
          intro i
          rw [ht, eq_div_iff h4, mul_comm]
        simp only [hpos, hiff] at hall
        simp only [ne_eq, hpos, hiff]
        obtain ⟨_, hsp⟩ := h3 t (hfin μ h4 hs)
        have h5 : M *ᵥ x = t • x := by
          have := congrArg ((q - μ * q')⁻¹ • ·) ((hdiff μ x).mp hx)
          simp only [smul_smul, inv_mul_cancel₀ h4, one_smul] at this
          rw [this, ht, div_eq_mul_inv, mul_comm]
        obtain ⟨d, hd'⟩ := (Submodule.mem_span_range_iff_exists_fun ℂ).mp (hsp x h5)
        classical
        refine ⟨fun j => if h : τ (l.get j) = t then d ⟨l.get j, h⟩ else 0, fun i hi => dif_neg hi, ?_⟩
        rw [hsum, ← hd', ← Fintype.sum_subtype_add_sum_subtype (fun j => τ (l.get j) = t) fun j => (if h : τ (l.get j) = t then d ⟨l.get j, h⟩ else 0) • w (l.get j)]
        have h6 : ∑ x : {j // ¬ τ (l.get j) = t}, (if h : τ (l.get x.1) = t then d ⟨l.get x.1, h⟩ else 0) • w (l.get x.1) = 0 :=
          Finset.sum_eq_zero fun x _ => by rw [dif_neg x.2, zero_smul]
        rw [h6, add_zero]
        let g : {j : Fin l.length // τ (l.get j) = t} → {i // τ i = t} := fun j => ⟨l.get j.1, j.2⟩
        have hg : Function.Bijective g := by
          refine ⟨fun i j hij => Subtype.ext (hinj (congrArg Subtype.val hij)), fun i => ?_⟩
          obtain ⟨j, hj⟩ := List.get_of_mem (hall i.1 i.2)
          exact ⟨⟨j, by rw [hj]; exact i.2⟩, Subtype.ext hj⟩
        rw [← hg.sum_comp fun i : {i // τ i = t} => d i • w i.1]
        refine Finset.sum_congr rfl fun j _ => ?_
        rw [dif_pos j.2]

theorem exists_eig_one (a : Matrix (Fin r ⊕ Fin r) (Fin r ⊕ Fin r) ℂ) : ∃ s : Eig r, EigOk a 1 s ∧ s.beta = 1 := by
  obtain ⟨s, h1, τ, h2⟩ := eig_of a 1 1 1 a 0 1 1 0 (by simp) (by simp) (by simp) (by simp)
  refine ⟨s, h1, ?_⟩
  rw [h2]
  ext i
  simp

theorem exists_eig_pencil (a b : Matrix (Fin r ⊕ Fin r) (Fin r ⊕ Fin r) ℂ) : ∃ s : Eig r, EigOk a b s := by
  by_cases hr : RegularPencil a b
  · obtain ⟨μ, hμ⟩ := hr
    set K := a - μ • b with hK
    have hdet : K.det ≠ 0 := by
      intro h0
      obtain ⟨x, hx0, hx⟩ := exists_mulVec_eq_zero_iff.mpr h0
      refine hx0 (hμ x ?_)
      rwa [hK, sub_mulVec, sub_eq_zero, smul_mulVec] at hx
    have hu := isUnit_iff_ne_zero.mpr hdet
    have h1 : K * K⁻¹ = 1 := mul_nonsing_inv K hu
    obtain ⟨s, h2, _⟩ := eig_of a b K K⁻¹ (K⁻¹ * b) 1 μ 0 1 (nonsing_inv_mul K hu)
      (by rw [Matrix.mul_add, Matrix.mul_smul, Matrix.mul_smul, ← Matrix.mul_assoc, h1, Matrix.one_mul, Matrix.mul_one, one_smul, hK, sub_add_cancel])
      (by rw [zero_smul, zero_add, one_smul, ← Matrix.mul_assoc, h1, Matrix.one_mul]) (by simp)
    exact ⟨s, h2⟩
  · exact ⟨⟨fun _ => 0, fun _ => 0, fun _ => 0, fun _ => 0⟩, fun h => absurd h hr, fun h => absurd h hr⟩

/-- Exact eigenvalue routines. -/
noncomputable def exactEig (eps : ℝ) : EigNum := ⟨fun a => (exists_eig_one a).choose, fun a b => (exists_eig_pencil a b).choose, eps⟩

theorem exactEig_ok {eps : ℝ} (h : 0 < eps) : (exactEig eps).Ok := ⟨fun a => (exists_eig_one a).choose_spec, fun a b => (exists_eig_pencil a b).choose_spec, h⟩

end Kwant.Leads
