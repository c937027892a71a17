import Verif.Solver.BlockProps
import Mathlib.Analysis.Matrix.Spectrum
import Mathlib.Analysis.Matrix.PosDef
import Mathlib.LinearAlgebra.Matrix.PosDef

/-!
C144: `two_terminal_shotnoise` (kwant/physics/noise.py).

Simplification: exact arithmetic.  That the argument is an `SMatrix` is in its type.
-/

set_option linter.unusedSectionVars false

namespace Kwant.Noise

open Kwant.Solver Finset Matrix

/-- `np.dot(t, t.conj().T)` for a matrix with `c` columns (noise.py l.40). -/
def ttdag (c : ℕ) (t : ℕ → ℕ → ℂ) (a a' : ℕ) : ℂ := ∑ y ∈ range c, t a y * star (t a' y)

/-- `np.trace(ttdag - np.dot(ttdag, ttdag)).real` for a matrix with `r` rows and `c` columns (noise.py l.40-41). -/
def noiseOf (r c : ℕ) (t : ℕ → ℕ → ℂ) : ℝ := (∑ a ∈ range r, (ttdag c t a a - ∑ a' ∈ range r, ttdag c t a a' * ttdag c t a' a)).re

/-- `two_terminal_shotnoise(smatrix)` (noise.py l.32-41). -/
def shotNoise (s : SMat) : Except SErr ℝ :=
  if s.nLeads ≠ 2 then .error .value
  else s.outLeads.head?.elim (.error .index) fun o => s.inLeads.head?.elim (.error .index) fun i =>
    (leadSlice s.sizes s.outLeads o).bind fun r => (leadSlice s.sizes s.inLeads i).bind fun c =>
      .ok (noiseOf (r.2 - r.1) (c.2 - c.1) fun a b => s.data (r.1 + a) (c.1 + b))

/-- The block of the scattering matrix from lead `i` to lead `o`. -/
def blk (N : ℕ → ℕ) (S : FullS) (o i : ℕ) : Matrix (Fin (N o)) (Fin (N i)) ℂ := fun a b => S o a i b

/-- The transmission eigenvalues from lead `i` to lead `o`: the eigenvalues of `t t†`. -/
noncomputable def transEig (N : ℕ → ℕ) (S : FullS) (o i : ℕ) : Fin (N o) → ℝ := (isHermitian_mul_conjTranspose_self (blk N S o i)).eigenvalues

/-- The trace of a block. -/
noncomputable def tr2 {m n : Type*} [Fintype m] [Fintype n] (B : Matrix m n ℂ) : ℂ := (B * Bᴴ - B * Bᴴ * (B * Bᴴ)).trace

theorem noiseOf_eq (N : ℕ → ℕ) (S : FullS) (o i : ℕ) : noiseOf (N o) (N i) (fun a b => S o a i b) = (tr2 (blk N S o i)).re := by
  unfold noiseOf tr2 ttdag
  congr 1
  rw [Finset.sum_range]
  simp only [Matrix.trace, Matrix.diag, Matrix.sub_apply, Matrix.mul_apply, Finset.sum_range, Matrix.conjTranspose_apply, blk]

theorem tr2_eig {n m : ℕ} (B : Matrix (Fin n) (Fin m) ℂ) :
    tr2 B = ((∑ p, (isHermitian_mul_conjTranspose_self B).eigenvalues p * (1 - (isHermitian_mul_conjTranspose_self B).eigenvalues p) : ℝ) : ℂ) := by
  set hA := isHermitian_mul_conjTranspose_self B
  have h1 : (B * Bᴴ).trace = ((∑ p, hA.eigenvalues p : ℝ) : ℂ) := by
    rw [hA.trace_eq_sum_eigenvalues]; push_cast; rfl
  have h2 : (B * Bᴴ * (B * Bᴴ)).trace = ((∑ p, hA.eigenvalues p ^ 2 : ℝ) : ℂ) := by
    have hs : B * Bᴴ * (B * Bᴴ) = Unitary.conjStarAlgAut ℂ _ hA.eigenvectorUnitary (diagonal (RCLike.ofReal ∘ hA.eigenvalues) * diagonal (RCLike.ofReal ∘ hA.eigenvalues)) := by
      rw [map_mul, ← hA.spectral_theorem]
    rw [hs, Unitary.conjStarAlgAut_apply, Matrix.trace_mul_cycle, Unitary.coe_star_mul_self, one_mul, Matrix.diagonal_mul_diagonal, Matrix.trace_diagonal]
    push_cast
    exact Finset.sum_congr rfl fun p _ => by simp [pow_two]
  rw [tr2, Matrix.trace_sub, h1, h2, ← Complex.ofReal_sub, ← Finset.sum_sub_distrib]
  congr 1
  exact Finset.sum_congr rfl fun p _ => by ring

/-- Rows of a unitary matrix. -/
theorem tr2_row {m n n' : Type*} [Fintype m] [DecidableEq m] [Fintype n] [Fintype n'] (B : Matrix m n ℂ) (C : Matrix m n' ℂ) (h : B * Bᴴ + C * Cᴴ = 1) : tr2 B = tr2 C := by
  have hB : B * Bᴴ = 1 - C * Cᴴ := eq_sub_of_add_eq h
  rw [tr2, tr2, hB]
  congr 1
  noncomm_ring

/-- The trace does not change if the matrix is replaced by its adjoint. -/
theorem tr2_adjoint {m n : Type*} [Fintype m] [Fintype n] (B : Matrix m n ℂ) : tr2 Bᴴ = tr2 B := by
  rw [tr2, tr2, Matrix.trace_sub, Matrix.trace_sub, Matrix.conjTranspose_conjTranspose, Matrix.trace_mul_comm Bᴴ B]
  congr 1
  rw [show Bᴴ * B * (Bᴴ * B) = Bᴴ * (B * Bᴴ * B) by simp only [Matrix.mul_assoc], Matrix.trace_mul_comm]
  simp only [Matrix.mul_assoc]

theorem tr2_col {m m' n : Type*} [Fintype m] [Fintype m'] [Fintype n] [DecidableEq n] (B : Matrix m n ℂ) (C : Matrix m' n ℂ) (h : Bᴴ * B + Cᴴ * C = 1) : tr2 B = tr2 C := by
  rw [← tr2_adjoint B, ← tr2_adjoint C]
  exact tr2_row _ _ (by simpa using h)

theorem unitary_row {N S} (h : Unitary 2 N S) {o : ℕ} (ho : o < 2) : blk N S o 0 * (blk N S o 0)ᴴ + blk N S o 1 * (blk N S o 1)ᴴ = 1 := by
  ext a a'
  have := h.1 o ho a a.2 o ho a' a'.2
  rw [Finset.sum_range_succ, Finset.sum_range_one, Finset.sum_range, Finset.sum_range] at this
  simp only [Matrix.add_apply, Matrix.mul_apply, Matrix.conjTranspose_apply, blk, this, true_and, Matrix.one_apply, Fin.ext_iff]

theorem unitary_col {N S} (h : Unitary 2 N S) {i : ℕ} (hi : i < 2) : (blk N S 0 i)ᴴ * blk N S 0 i + (blk N S 1 i)ᴴ * blk N S 1 i = 1 := by
  ext a a'
  have := h.2 i hi a a.2 i hi a' a'.2
  rw [Finset.sum_range_succ, Finset.sum_range_one, Finset.sum_range, Finset.sum_range] at this
  simp only [Matrix.add_apply, Matrix.mul_apply, Matrix.conjTranspose_apply, blk, this, true_and, Matrix.one_apply, Fin.ext_iff]

/-- All four blocks of the scattering matrix of a two-terminal system give the same trace. -/
theorem tr2_blk {N S} (h : Unitary 2 N S) {o i o' i' : ℕ} (ho : o < 2) (hi : i < 2) (ho' : o' < 2) (hi' : i' < 2) : tr2 (blk N S o i) = tr2 (blk N S o' i') := by
  have r : ∀ o, o < 2 → tr2 (blk N S o 0) = tr2 (blk N S o 1) := fun o ho => tr2_row _ _ (unitary_row h ho)
  have c : ∀ i, i < 2 → tr2 (blk N S 0 i) = tr2 (blk N S 1 i) := fun i hi => tr2_col _ _ (unitary_col h hi)
  have key : ∀ o i, o < 2 → i < 2 → tr2 (blk N S o i) = tr2 (blk N S 0 0) := by
    intro o i ho hi
    have h1 : tr2 (blk N S o i) = tr2 (blk N S o 0) := by
      rcases (by omega : i = 0 ∨ i = 1) with rfl | rfl
      · rfl
      · exact (r o ho).symm
    rcases (by omega : o = 0 ∨ o = 1) with rfl | rfl
    · exact h1
    · exact h1.trans (c 0 (by norm_num)).symm
  rw [key o i ho hi, key o' i' ho' hi']

/-- What is calculated: the noise of the block between the first leads. -/
theorem shotNoise_block {s : SMat} {S : FullS} (hp : PartOf s S) (h2 : s.nLeads = 2) {o i : ℕ} (ho : s.outLeads.head? = some o) (hi : s.inLeads.head? = some i) :
    shotNoise s = .ok (tr2 (blk s.sizes S o i)).re := by
  have ho0 : s.outLeads[0]? = some o := by rw [← List.head?_eq_getElem?]; exact ho
  have hi0 : s.inLeads[0]? = some i := by rw [← List.head?_eq_getElem?]; exact hi
  have e : noiseOf (s.sizes o) (s.sizes i) (fun a b => s.data (before s.sizes s.outLeads 0 + a) (before s.sizes s.inLeads 0 + b)) = noiseOf (s.sizes o) (s.sizes i) fun a b => S o a i b := by
    unfold noiseOf ttdag
    congr 1
    refine Finset.sum_congr rfl fun a ha => ?_
    congr 1
    · exact Finset.sum_congr rfl fun y hy => by beta_reduce; rw [hp.data o i a y 0 0 ho0 hi0 (Finset.mem_range.mp ha) (Finset.mem_range.mp hy)]
    · refine Finset.sum_congr rfl fun a' ha' => ?_
      congr 1 <;> exact Finset.sum_congr rfl fun y hy => by
        beta_reduce
        rw [hp.data o i a y 0 0 ho0 hi0 (Finset.mem_range.mp ha) (Finset.mem_range.mp hy), hp.data o i a' y 0 0 ho0 hi0 (Finset.mem_range.mp ha') (Finset.mem_range.mp hy)]
  simp only [shotNoise, h2, ne_eq, not_true_eq_false, if_false, ho, hi, Option.elim, C55_slice s.sizes hp.outNodup 0 o ho0, C55_slice s.sizes hp.inNodup 0 i hi0, Except.bind,
    Nat.add_sub_cancel_left]
  rw [e, noiseOf_eq]

/-- C144.  The value for a two-terminal system: whichever blocks of the unitary scattering matrix were calculated, and in whatever order, the shot noise is the sum of `T (1 - T)` over the
transmission eigenvalues from lead `i` to lead `o`, for all `i` and `o`.  In particular it does not matter that with both leads on both sides the block of the reflection at lead 0 is used. -/
theorem shotNoise_value {s : SMat} {S : FullS} (hp : PartOf s S) (h2 : s.nLeads = 2) (hu : Unitary 2 s.sizes S) (ho : s.outLeads ≠ []) (hi : s.inLeads ≠ []) {o i : ℕ} (ho' : o < 2) (hi' : i < 2) :
    shotNoise s = .ok (∑ p, transEig s.sizes S o i p * (1 - transEig s.sizes S o i p)) := by
  obtain ⟨o0, l, hol⟩ := List.exists_cons_of_ne_nil ho
  obtain ⟨i0, l', hil⟩ := List.exists_cons_of_ne_nil hi
  have h1 : o0 < 2 := h2 ▸ hp.outLt o0 (by rw [hol]; simp)
  have h3 : i0 < 2 := h2 ▸ hp.inLt i0 (by rw [hil]; simp)
  rw [shotNoise_block hp h2 (o := o0) (i := i0) (by rw [hol]; rfl) (by rw [hil]; rfl), tr2_blk hu h1 h3 ho' hi', tr2_eig, Complex.ofReal_re]
  rfl

open scoped ComplexOrder in
/-- The transmission eigenvalues are between 0 and 1. -/
theorem transEig_bounds {N S} (h : Unitary 2 N S) {o i : ℕ} (ho : o < 2) (hi : i < 2) (p : Fin (N o)) : 0 ≤ transEig N S o i p ∧ transEig N S o i p ≤ 1 := by
  refine ⟨(Matrix.posSemidef_self_mul_conjTranspose (blk N S o i)).eigenvalues_nonneg p, ?_⟩
  have hA := isHermitian_mul_conjTranspose_self (blk N S o i)
  have hps : (1 - blk N S o i * (blk N S o i)ᴴ).PosSemidef := by
    have := unitary_row h ho
    rcases (by omega : i = 0 ∨ i = 1) with rfl | rfl
    · rw [← this, add_sub_cancel_left]; exact Matrix.posSemidef_self_mul_conjTranspose _
    · rw [← this, add_sub_cancel_right]; exact Matrix.posSemidef_self_mul_conjTranspose _
  have hv := hA.mulVec_eigenvectorBasis p
  have h1 := hps.dotProduct_mulVec_nonneg (⇑(hA.eigenvectorBasis p))
  rw [Matrix.sub_mulVec, Matrix.one_mulVec, hv, dotProduct_sub, dotProduct_smul] at h1
  have h3 : (star (⇑(hA.eigenvectorBasis p)) ⬝ᵥ ⇑(hA.eigenvectorBasis p) : ℂ) = 1 := by
    have := hA.eigenvectorBasis.orthonormal.1 p
    have h4 := inner_self_eq_norm_sq_to_K (𝕜 := ℂ) (hA.eigenvectorBasis p)
    rw [this, EuclideanSpace.inner_eq_star_dotProduct, dotProduct_comm] at h4
    simpa using h4
  rw [h3] at h1
  have h5 := (Complex.le_def.mp h1).1
  simp at h5
  exact h5

/-- C144.  The shot noise is not negative, and at most a quarter of the number of modes of either lead. -/
theorem shotNoise_bounds {s : SMat} {S : FullS} (hp : PartOf s S) (h2 : s.nLeads = 2) (hu : Unitary 2 s.sizes S) {v : ℝ} (hv : shotNoise s = .ok v) :
    0 ≤ v ∧ ∀ l < 2, v ≤ s.sizes l / 4 := by
  have ho : s.outLeads ≠ [] := by rintro h; simp [shotNoise, h2, h] at hv
  have hi : s.inLeads ≠ [] := by
    rintro h
    cases hh : s.outLeads.head? <;> simp [shotNoise, h2, h, hh] at hv
  have key : ∀ l < 2, v = ∑ p, transEig s.sizes S l l p * (1 - transEig s.sizes S l l p) := by
    intro l hl
    have := shotNoise_value hp h2 hu ho hi hl hl
    rw [hv] at this
    simpa using this
  refine ⟨?_, fun l hl => ?_⟩
  · rw [key 0 (by norm_num)]
    refine Finset.sum_nonneg fun p _ => ?_
    obtain ⟨h1, h2⟩ := transEig_bounds hu (by norm_num : 0 < 2) (by norm_num : 0 < 2) p
    nlinarith
  · rw [key l hl]
    calc _ ≤ ∑ _p : Fin (s.sizes l), (1 / 4 : ℝ) := Finset.sum_le_sum fun p _ => by nlinarith [sq_nonneg (transEig s.sizes S l l p - 1 / 2)]
      _ = _ := by simp; ring

/-- C144.  A `ValueError` for a number of leads other than two. -/
theorem shotNoise_refused (s : SMat) (h : s.nLeads ≠ 2) : shotNoise s = .error .value := by
  rw [shotNoise, if_pos h]

/-- A beam splitter with transmission 9/25. -/
noncomputable def splitter : FullS := fun o _ i _ => (((if o = i then 4 / 5 else if o = 0 then -(3 / 5) else 3 / 5) : ℝ) : ℂ)

theorem splitter_unitary : Unitary 2 (fun _ => 1) splitter := by
  constructor <;>
  · intro o ho a ha o' ho' a' ha'
    have h1 : o = 0 ∨ o = 1 := by omega
    have h2 : o' = 0 ∨ o' = 1 := by omega
    have h3 : a = 0 := Nat.lt_one_iff.mp ha
    have h4 : a' = 0 := Nat.lt_one_iff.mp ha'
    rcases h1 with rfl | rfl <;> rcases h2 with rfl | rfl <;> simp only [h3, h4, splitter, Finset.sum_range_succ, Finset.sum_range_zero, Complex.star_def, Complex.conj_ofReal, ← Complex.ofReal_mul, ← Complex.ofReal_add, ← Complex.ofReal_zero] <;> norm_num

/-- Not empty: the noise of the beam splitter, from any of its blocks, is 9/25 · 16/25. -/
example {o i : ℕ} (ho : o < 2) (hi : i < 2) : PartOf (single splitter o i) splitter ∧ Unitary 2 (single splitter o i).sizes splitter ∧ shotNoise (single splitter o i) = .ok (9 / 25 * (16 / 25)) := by
  refine ⟨single_part _ ho hi, splitter_unitary, ?_⟩
  rw [shotNoise_block (single_part splitter ho hi) rfl (o := o) (i := i) rfl rfl]
  congr 1
  change (tr2 (blk (fun _ => 1) splitter o i)).re = _
  rw [tr2_blk splitter_unitary ho hi (o' := 1) (i' := 0) (by norm_num) (by norm_num)]
  simp only [tr2, blk, splitter, Matrix.trace, Matrix.mul_apply, Matrix.conjTranspose_apply, Matrix.diag, Matrix.sub_apply, Fin.sum_univ_one, Complex.star_def, Complex.conj_ofReal, ← Complex.ofReal_mul, ← Complex.ofReal_sub, Complex.ofReal_re, Finset.univ_unique, Finset.sum_singleton]
  norm_num

end Kwant.Noise
