import Verif.Linalg.SchurEvecs
import Mathlib.Data.Complex.BigOperators
import Mathlib.Algebra.Star.Pi
import Mathlib.Algebra.Star.Module

/-! # Eigenvectors from (generalized) Schur forms (C164, C165) -/

set_option linter.unusedSectionVars false

namespace Kwant.Schur

open Matrix

variable {n : ℕ}

/-- `q x` for a column. -/
noncomputable def qmul (n : ℕ) (q : Arr ℝ) (x : Col) : Col :=
  fun r => ∑ k ∈ Finset.range n, (q r k : ℂ) * x k

theorem qmul_vec (q : Arr ℝ) (x : Col) :
    Col.vec n (qmul n q x) = (mat n q).map (fun x : ℝ => (x : ℂ)) *ᵥ Col.vec n x := by
  funext r
  simp only [Col.vec, qmul, Matrix.mulVec, dotProduct, Matrix.map_apply, mat, Matrix.of_apply]
  rw [Finset.sum_range]

theorem packed_dot {T : Arr ℝ} {sel : ℕ → Bool} {P P' : ℕ → Col → Prop} {q v : Arr ℝ}
    (h : Packed n T sel P v) (hp : ∀ k x, P k x → P' k (qmul n q x)) :
    Packed n T sel P' (dotA n q v) := by
  constructor
  · intro k h1 h2 h3 h4
    have := hp k _ (h.single k h1 h2 h3 h4)
    have e : (fun r => (dotA n q v r (store n T sel k) : ℂ)) =
        qmul n q (fun r => (v r (store n T sel k) : ℂ)) := by
      funext r
      simp [dotA, qmul]
    rw [e]
    exact this
  · intro i h1 h2 h3
    have := hp i _ (h.pair i h1 h2 h3)
    have e : (fun r => (dotA n q v r (store n T sel i) : ℂ) +
          Complex.I * dotA n q v r (store n T sel i + 1)) =
        qmul n q (fun r => (v r (store n T sel i) : ℂ) +
          Complex.I * v r (store n T sel i + 1)) := by
      funext r
      simp only [dotA, qmul, Complex.ofReal_sum, Complex.ofReal_mul, Finset.mul_sum,
        ← Finset.sum_add_distrib]
      apply Finset.sum_congr rfl
      intro k _
      ring
    rw [e]
    exact this

section lin
variable (A B : Matrix (Fin n) (Fin n) ℝ) (x : Col)

/-- The complex conjugate of a column. -/
noncomputable def cconj (x : Col) : Col := fun r => (starRingEnd ℂ) (x r)

theorem cconj_vec : Col.vec n (cconj x) = star (Col.vec n x) := rfl

theorem conj_mulVec (y : Fin n → ℂ) : A.map (fun x : ℝ => (x : ℂ)) *ᵥ star y =
    star (A.map (fun x : ℝ => (x : ℂ)) *ᵥ y) := by
  funext r
  simp [Matrix.mulVec, dotProduct]

theorem conj_vecMul (y : Fin n → ℂ) : star y ᵥ* A.map (fun x : ℝ => (x : ℂ)) =
    star (y ᵥ* A.map (fun x : ℝ => (x : ℂ))) := by
  funext r
  simp [Matrix.vecMul, dotProduct]

end lin

theorem vec_ne {q : Arr ℝ} (hq : mat n q ∈ orthogonalGroup (Fin n) ℝ) {x : Col}
    (h : Col.vec n x ≠ 0) : Col.vec n (qmul n q x) ≠ 0 := by
  rw [qmul_vec]
  intro e
  apply h
  have o : (mat n q)ᵀ * mat n q = 1 := (mem_orthogonalGroup_iff' (Fin n) ℝ).mp hq
  have := congrArg (fun y => ((mat n q)ᵀ).map (fun x : ℝ => (x : ℂ)) *ᵥ y) e
  simp only [Matrix.mulVec_mulVec, ← ofReal_map_mul, o, Matrix.mulVec_zero] at this
  have one : (1 : Matrix (Fin n) (Fin n) ℝ).map (fun x : ℝ => (x : ℂ)) = 1 := by
    ext a b
    by_cases h : a = b <;> simp [Matrix.one_apply, h]
  rw [one, Matrix.one_mulVec] at this
  exact this

theorem orth_mul {q : Arr ℝ} (hq : mat n q ∈ orthogonalGroup (Fin n) ℝ) (y : Fin n → ℂ) :
    ((mat n q)ᵀ).map (fun x : ℝ => (x : ℂ)) *ᵥ ((mat n q).map (fun x : ℝ => (x : ℂ)) *ᵥ y) = y := by
  have o : (mat n q)ᵀ * mat n q = 1 := (mem_orthogonalGroup_iff' (Fin n) ℝ).mp hq
  rw [Matrix.mulVec_mulVec, ← ofReal_map_mul, o]
  have one : (1 : Matrix (Fin n) (Fin n) ℝ).map (fun x : ℝ => (x : ℂ)) = 1 := by
    ext a b
    by_cases h : a = b <;> simp [Matrix.one_apply, h]
  rw [one, Matrix.one_mulVec]

/-- `(q m z^T) (z x) = q (m x)`. -/
theorem pencil_mul {q z m : Arr ℝ} (hz : mat n z ∈ orthogonalGroup (Fin n) ℝ) (x : Col) :
    (mat n q * mat n m * (mat n z)ᵀ).map (fun x : ℝ => (x : ℂ)) *ᵥ Col.vec n (qmul n z x) =
      (mat n q).map (fun x : ℝ => (x : ℂ)) *ᵥ
        ((mat n m).map (fun x : ℝ => (x : ℂ)) *ᵥ Col.vec n x) := by
  rw [ofReal_map_mul, ofReal_map_mul, qmul_vec, ← Matrix.mulVec_mulVec, orth_mul hz,
    ← Matrix.mulVec_mulVec]

/-- `(q y)^dagger (q m z^T) = (y^dagger m) z^T`. -/
theorem pencil_vecMul {q z m : Arr ℝ} (hq : mat n q ∈ orthogonalGroup (Fin n) ℝ) (y : Col) :
    star (Col.vec n (qmul n q y)) ᵥ* (mat n q * mat n m * (mat n z)ᵀ).map (fun x : ℝ => (x : ℂ)) =
      (star (Col.vec n y) ᵥ* (mat n m).map (fun x : ℝ => (x : ℂ))) ᵥ*
        ((mat n z)ᵀ).map (fun x : ℝ => (x : ℂ)) := by
  rw [ofReal_map_mul, ofReal_map_mul, ← Matrix.vecMul_vecMul, ← Matrix.vecMul_vecMul]
  congr 2
  rw [qmul_vec, Matrix.star_mulVec, Matrix.vecMul_vecMul]
  have e : ((mat n q).map (fun x : ℝ => (x : ℂ)))ᴴ = ((mat n q)ᵀ).map (fun x : ℝ => (x : ℂ)) := by
    ext a b
    simp
  have o : (mat n q)ᵀ * mat n q = 1 := (mem_orthogonalGroup_iff' (Fin n) ℝ).mp hq
  have one : (1 : Matrix (Fin n) (Fin n) ℝ).map (fun x : ℝ => (x : ℂ)) = 1 := by
    ext a b
    by_cases h : a = b <;> simp [Matrix.one_apply, h]
  rw [e, ← ofReal_map_mul, o, one, Matrix.vecMul_one]

theorem rightG_conj {A B : Matrix (Fin n) (Fin n) ℝ} {a b a' b' : ℂ} (hb : b ≠ 0) (hb' : b' ≠ 0)
    (h : a' / b' = (starRingEnd ℂ) (a / b)) {x : Col} (hx : RightGEig A B a b x) :
    RightGEig A B a' b' (cconj x) := by
  refine ⟨?_, ?_⟩
  · rw [cconj_vec]
    intro e
    exact hx.1 (by simpa using congrArg star e)
  · rw [cconj_vec, conj_mulVec, conj_mulVec]
    have e : A.map (fun x : ℝ => (x : ℂ)) *ᵥ Col.vec n x =
        (a / b) • (B.map (fun x : ℝ => (x : ℂ)) *ᵥ Col.vec n x) := by
      have := congrArg (fun y => b⁻¹ • y) hx.2
      simp only [smul_smul, inv_mul_cancel₀ hb, one_smul] at this
      rw [this]
      congr 1
      rw [div_eq_inv_mul]
    rw [e, star_smul, smul_smul]
    congr 1
    have : star (a / b) = a' / b' := h.symm
    rw [this, mul_div_cancel₀ _ hb']

theorem leftG_conj {A B : Matrix (Fin n) (Fin n) ℝ} {a b a' b' : ℂ} (hb : b ≠ 0) (hb' : b' ≠ 0)
    (h : a' / b' = (starRingEnd ℂ) (a / b)) {x : Col} (hx : LeftGEig A B a b x) :
    LeftGEig A B a' b' (cconj x) := by
  refine ⟨?_, ?_⟩
  · rw [cconj_vec]
    intro e
    exact hx.1 (by simpa using congrArg star e)
  · rw [cconj_vec, conj_vecMul A (star (Col.vec n x)), conj_vecMul B (star (Col.vec n x))]
    have e : star (Col.vec n x) ᵥ* A.map (fun x : ℝ => (x : ℂ)) =
        (a / b) • (star (Col.vec n x) ᵥ* B.map (fun x : ℝ => (x : ℂ))) := by
      have := congrArg (fun y => b⁻¹ • y) hx.2
      simp only [smul_smul, inv_mul_cancel₀ hb, one_smul] at this
      rw [this]
      congr 1
      rw [div_eq_inv_mul]
    rw [e, star_smul, smul_smul]
    congr 1
    have : star (a / b) = a' / b' := h.symm
    rw [this, mul_div_cancel₀ _ hb']

/-- **C165**.  Let LAPACK's real `tgevc` compute and store the vectors as it documents
(the vectors of a pair packed into two real columns).  For every real generalized Schur form
`(s, t)` of any size with orthogonal `q`, `z`, every list `alpha`, `beta` of its
eigenvalues and every selection (or none), `evecs_from_gen_schur` returns, for the selected
indices in their order and nothing else, a left and a right eigenvector each, of the
pencil `(q s z^T, q t z^T)` and for the eigenvalue with that index, also if of a conjugate pair
only one is selected; the assertion on the number of columns never fails. -/
theorem C165_evecs (s t q z : Arr ℝ) (alpha beta : ℕ → ℂ) (R : RealGSchur n s t)
    (hq : mat n q ∈ orthogonalGroup (Fin n) ℝ) (hz : mat n z ∈ orthogonalGroup (Fin n) ℝ)
    (E : GEigList n s t alpha beta) (L : Xevc) (hL : TgevcOK n s t q z alpha beta L)
    (select : Option (ℕ → Bool)) :
    ∃ vl vr, evecsFromGenSchur L n s q z select = some (vl, vr) ∧
      List.Forall₂ (fun k x => LeftGEig (mat n q * mat n s * (mat n z)ᵀ)
        (mat n q * mat n t * (mat n z)ᵀ) (alpha k) (beta k) x)
        ((List.range n).filter (selOf select)) vl ∧
      List.Forall₂ (fun k x => RightGEig (mat n q * mat n s * (mat n z)ᵀ)
        (mat n q * mat n t * (mat n z)ᵀ) (alpha k) (beta k) x)
        ((List.range n).filter (selOf select)) vr := by
  have hm : colsMM n s select = (L.run select).2.2 := by
    rw [colsMM_eq R.apart]
    cases select with
    | none => exact hL.num_all.symm
    | some sel => exact (hL.num_sel sel).symm
  refine ⟨finishSide n s q (L.run select).1 select, finishSide n s z (L.run select).2.1 select,
    by simp only [evecsFromGenSchur, hm, if_true], ?_, ?_⟩
  · apply finishSide_ok R.apart select
    · cases select with
      | none => exact hL.left_all
      | some sel =>
        apply packed_dot (hL.left_sel sel)
        intro k x hx
        refine ⟨vec_ne hq hx.1, ?_⟩
        rw [pencil_vecMul hq, pencil_vecMul hq]
        have e := congrArg (fun y => y ᵥ* ((mat n z)ᵀ).map (fun x : ℝ => (x : ℂ))) hx.2
        rw [Matrix.smul_vecMul (beta k), Matrix.smul_vecMul (alpha k)] at e
        exact e
    · intro i x h1 h2 hx
      exact leftG_conj (E.fin0 i h1 h2) (E.fin1 i h1 h2) (E.conj i h1 h2) hx
  · apply finishSide_ok R.apart select
    · cases select with
      | none => exact hL.right_all
      | some sel =>
        apply packed_dot (hL.right_sel sel)
        intro k x hx
        refine ⟨vec_ne hz hx.1, ?_⟩
        rw [pencil_mul hz, pencil_mul hz]
        have e := congrArg (fun y => (mat n q).map (fun x : ℝ => (x : ℂ)) *ᵥ y) hx.2
        rw [Matrix.mulVec_smul _ (beta k), Matrix.mulVec_smul _ (alpha k)] at e
        exact e
    · intro i x h1 h2 hx
      exact rightG_conj (E.fin0 i h1 h2) (E.fin1 i h1 h2) (E.conj i h1 h2) hx

/-- **C164**.  The same for `evecs_from_schur`: for every real Schur form `(t, q)` of any size
and every selection (or none), the function returns, for the selected indices
in their order and nothing else, a left and a right eigenvector each of `q t q^T` for
the eigenvalue with that index. -/
theorem C164_evecs (t q : Arr ℝ) (w : ℕ → ℂ) (S : RealSchur n t)
    (hq : mat n q ∈ orthogonalGroup (Fin n) ℝ) (E : EigList n t w) (L : Xevc)
    (hL : TrevcOK n t q w L) (select : Option (ℕ → Bool)) :
    ∃ vl vr, evecsFromSchur L n t q select = some (vl, vr) ∧
      List.Forall₂ (fun k x => LeftEig (mat n q * mat n t * (mat n q)ᵀ) (w k) x)
        ((List.range n).filter (selOf select)) vl ∧
      List.Forall₂ (fun k x => RightEig (mat n q * mat n t * (mat n q)ᵀ) (w k) x)
        ((List.range n).filter (selOf select)) vr := by
  have hm : colsMM n t select = (L.run select).2.2 := by
    rw [colsMM_eq S.apart]
    cases select with
    | none => exact hL.num_all.symm
    | some sel => exact (hL.num_sel sel).symm
  refine ⟨finishSide n t q (L.run select).1 select, finishSide n t q (L.run select).2.1 select,
    by simp only [evecsFromSchur, hm, if_true], ?_, ?_⟩
  · apply finishSide_ok S.apart select
    · cases select with
      | none => exact hL.left_all
      | some sel =>
        apply packed_dot (hL.left_sel sel)
        intro k x hx
        refine ⟨vec_ne hq hx.1, ?_⟩
        rw [pencil_vecMul hq, hx.2, Matrix.smul_vecMul]
        congr 1
        rw [qmul_vec, Matrix.star_mulVec]
        congr 1
        ext a b
        simp
    · intro i x h1 h2 hx
      change LeftEig _ _ (cconj x)
      refine ⟨?_, ?_⟩
      · rw [cconj_vec]
        intro e
        exact hx.1 (by simpa using congrArg star e)
      · rw [cconj_vec, conj_vecMul _ (star (Col.vec n x)), hx.2, star_smul, E.conj i h1 h2]
        rfl
  · apply finishSide_ok S.apart select
    · cases select with
      | none => exact hL.right_all
      | some sel =>
        apply packed_dot (hL.right_sel sel)
        intro k x hx
        refine ⟨vec_ne hq hx.1, ?_⟩
        rw [pencil_mul hq, hx.2, Matrix.mulVec_smul, qmul_vec]
    · intro i x h1 h2 hx
      change RightEig _ _ (cconj x)
      refine ⟨?_, ?_⟩
      · rw [cconj_vec]
        intro e
        exact hx.1 (by simpa using congrArg star e)
      · rw [cconj_vec, conj_mulVec, hx.2, star_smul, E.conj i h1 h2]
        rfl

end Kwant.Schur
