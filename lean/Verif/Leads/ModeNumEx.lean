import Verif.Leads.ProperMain
import Verif.Leads.SelfEnergyEx
import Mathlib.Analysis.Matrix.Spectrum
import Mathlib.LinearAlgebra.Matrix.Rank
import Mathlib.LinearAlgebra.Matrix.DotProduct

/-!
The contracts of the numerical routines used by `make_proper_modes` can be met, for matrices of every size; an example for C109.
-/

set_option linter.unusedSectionVars false

namespace Kwant.Leads
open Matrix Complex
open scoped ComplexOrder

variable {n : ℕ}

theorem exists_eigh {k : ℕ} (m : Matrix (Fin k) (Fin k) ℂ) (hm : mᴴ = m) : ∃ (vals : Fin k → ℝ) (rot : Matrix (Fin k) (Fin k) ℂ),
    m = rot * diagonal (fun i => (vals i : ℂ)) * rotᴴ ∧ rotᴴ * rot = 1 ∧ Monotone vals := by
  have hA : m.IsHermitian := hm
  set U : Matrix (Fin k) (Fin k) ℂ := hA.eigenvectorUnitary.val with hU
  have hUU : Uᴴ * U = 1 := (Matrix.mem_unitaryGroup_iff'.mp hA.eigenvectorUnitary.property)
  have hsp := hA.spectral_theorem
  rw [Unitary.conjStarAlgAut_apply] at hsp
  have hsp' : m = U * diagonal (fun i => (hA.eigenvalues i : ℂ)) * Uᴴ := hsp
  let σ := Tuple.sort hA.eigenvalues
  refine ⟨hA.eigenvalues ∘ σ, U.submatrix id σ, ?_, ?_, Tuple.monotone_sort _⟩
  · conv_lhs => rw [hsp']
    ext i j
    rw [Matrix.mul_apply, Matrix.mul_apply]
    simp only [Matrix.mul_diagonal, conjTranspose_apply, submatrix_apply, id_eq, Function.comp_apply]
    exact (Equiv.sum_comp σ fun l => U i l * (hA.eigenvalues l : ℂ) * star (U j l)).symm
  · ext i j
    have := congrFun (congrFun hUU (σ i)) (σ j)
    rw [one_apply] at this ⊢
    simp only [σ.injective.eq_iff] at this
    exact this

theorem exists_qr {k : ℕ} (hk : k ≤ n) (a : Matrix (Fin n) (Fin k) ℂ) : ∃ (q : Matrix (Fin n) (Fin k) ℂ) (t : Matrix (Fin k) (Fin k) ℂ),
    q * t = a ∧ qᴴ * q = 1 := by
  classical
  obtain ⟨vals, rot, h1, h2, h3⟩ := exists_eigh (a * aᴴ) (by rw [conjTranspose_mul, conjTranspose_conjTranspose])
  have h2' : rot * rotᴴ = 1 := mul_eq_one_comm.mp h2
  have hd : rotᴴ * (a * aᴴ) * rot = diagonal (fun i => (vals i : ℂ)) := by
    rw [h1]
    calc rotᴴ * (rot * diagonal (fun i => (vals i : ℂ)) * rotᴴ) * rot = (rotᴴ * rot) * diagonal (fun i => (vals i : ℂ)) * (rotᴴ * rot) := by
          simp only [Matrix.mul_assoc]
      _ = _ := by rw [h2, Matrix.one_mul, Matrix.mul_one]
  have hrow : ∀ i, ∑ c, ‖(rotᴴ * a) i c‖ ^ 2 = vals i := by
    intro i
    have := congrFun (congrFun hd i) i
    rw [diagonal_apply_eq] at this
    have h4 : rotᴴ * (a * aᴴ) * rot = (rotᴴ * a) * (rotᴴ * a)ᴴ := by
      rw [conjTranspose_mul, conjTranspose_conjTranspose]
      simp only [Matrix.mul_assoc]
    rw [h4, Matrix.mul_apply] at this
    have h5 : ∀ c, (rotᴴ * a) i c * (rotᴴ * a)ᴴ c i = ((‖(rotᴴ * a) i c‖ ^ 2 : ℝ) : ℂ) := by
      intro c
      rw [conjTranspose_apply, star_def, Complex.mul_conj, Complex.normSq_eq_norm_sq]
    simp only [h5] at this
    exact_mod_cast this
  have hnn : ∀ i, 0 ≤ vals i := fun i => by rw [← hrow i]; positivity
  have hrank : (diagonal (fun i => (vals i : ℂ))).rank ≤ k := by
    rw [← hd]
    refine (Matrix.rank_mul_le_left _ _).trans ((Matrix.rank_mul_le_right _ _).trans ((Matrix.rank_mul_le_left _ _).trans ?_))
    exact Matrix.rank_le_width a
  rw [Matrix.rank_diagonal] at hrank
  have hz : ∀ i : Fin n, i.val < n - k → vals i = 0 := by
    intro i hi
    by_contra hne
    have hpos : 0 < vals i := lt_of_le_of_ne (hnn i) (Ne.symm hne)
    have : (Finset.Ici i).card ≤ Fintype.card {j : Fin n // (vals j : ℂ) ≠ 0} := by
      rw [Fintype.card_subtype]
      refine Finset.card_le_card ?_
      intro j hj
      rw [Finset.mem_filter]
      refine ⟨Finset.mem_univ _, ?_⟩
      rw [Complex.ofReal_ne_zero]
      exact (lt_of_lt_of_le hpos (h3 (Finset.mem_Ici.mp hj))).ne'
    rw [Fin.card_Ici] at this
    omega
  have hzrow : ∀ i : Fin n, i.val < n - k → ∀ c, (rotᴴ * a) i c = 0 := by
    intro i hi c
    have := hrow i
    rw [hz i hi] at this
    have := (Finset.sum_eq_zero_iff_of_nonneg (fun c _ => by positivity)).mp this c (Finset.mem_univ _)
    simpa using this
  let f : Fin k → Fin n := fun j => ⟨n - k + j.val, by omega⟩
  have hf : Function.Injective f := by
    intro x y hxy
    have := congrArg Fin.val hxy
    simp only [f] at this
    ext
    omega
  refine ⟨rot.submatrix id f, (rotᴴ * a).submatrix f id, ?_, ?_⟩
  · have h6 : a = rot * (rotᴴ * a) := by rw [← Matrix.mul_assoc, h2', Matrix.one_mul]
    ext i c
    conv_rhs => rw [h6]
    rw [Matrix.mul_apply, Matrix.mul_apply]
    have : ∑ j, rot i j * (rotᴴ * a) j c = ∑ j ∈ Finset.univ.map ⟨f, hf⟩, rot i j * (rotᴴ * a) j c := by
      symm
      refine Finset.sum_subset (Finset.subset_univ _) fun j _ hj => ?_
      rw [hzrow j ?_ c, mul_zero]
      by_contra hc
      refine hj (Finset.mem_map.mpr ⟨⟨j.val - (n - k), by omega⟩, Finset.mem_univ _, ?_⟩)
      ext
      simp only [Function.Embedding.coeFn_mk, f]
      omega
    rw [this, Finset.sum_map]
    rfl
  · ext i j
    have := congrFun (congrFun h2 (f i)) (f j)
    rw [one_apply] at this ⊢
    simp only [hf.eq_iff] at this
    exact this

theorem gram_unit {k : ℕ} (a : Matrix (Fin n) (Fin k) ℂ) (ha : ∀ y, a *ᵥ y = 0 → y = 0) : IsUnit (aᴴ * a).det := by
  refine isUnit_of_inj fun c hc => ha c ?_
  have : star (a *ᵥ c) ⬝ᵥ (a *ᵥ c) = 0 := by
    rw [star_mulVec, dotProduct_mulVec, vecMul_vecMul, ← dotProduct_mulVec, hc, dotProduct_zero]
  exact dotProduct_star_self_eq_zero.mp this

open Classical in
/-- Exact numerical routines, with the given tolerances. -/
noncomputable def exactNum (n : ℕ) (eps velEps : ℝ) : ModeNum n where
  qr := fun {k} a => if h : k ≤ n then (Classical.choose (exists_qr h a), Classical.choose (Classical.choose_spec (exists_qr h a))) else (0, 0)
  qrPivot := fun a => a
  solveRight := fun m b => b * m⁻¹
  eigh := fun m => if h : mᴴ = m then (Classical.choose (exists_eigh m h), Classical.choose (Classical.choose_spec (exists_eigh m h))) else (0, 0)
  schur := fun m => (m, 1)
  lstsq := fun a b => (aᴴ * a)⁻¹ * (aᴴ * b)
  argsort := fun f => Tuple.sort f
  argmax := fun _ => 0
  eps := eps
  velEps := velEps

/-- The contracts can be met. -/
theorem exactNum_ok (n : ℕ) {eps velEps : ℝ} (h1 : 0 < eps) (h2 : 0 < velEps) : (exactNum n eps velEps).Ok := by
  refine ⟨?_, fun m b _ => rfl, ?_, ?_, fun f => Tuple.monotone_sort f, h1, h2⟩
  · intro k a hk
    have := Classical.choose_spec (Classical.choose_spec (exists_qr hk a))
    simp only [exactNum, dif_pos hk]
    exact this
  · intro k m hm
    have := Classical.choose_spec (Classical.choose_spec (exists_eigh m hm))
    simp only [exactNum, dif_pos hm]
    exact this
  · intro k l a x ha
    change (aᴴ * a)⁻¹ * (aᴴ * (a * x)) = x
    rw [← Matrix.mul_assoc aᴴ, ← Matrix.mul_assoc, Matrix.nonsing_inv_mul _ (gram_unit a ha), Matrix.one_mul]

end Kwant.Leads
