import Mathlib.LinearAlgebra.Matrix.NonsingularInverse
import Mathlib.Data.Matrix.Mul
import Mathlib.Data.Rat.Init
import Verif.Solver.Mumps

/-!
# C196: `schur_complement` (kwant/linalg/mumps.py l.423-503)

The MUMPS library is a parameter, with its documented behaviour as contract: indices count from 1, entries of an assembled matrix with the same position add up, `ICNTL(19)` selects how
the Schur complement is returned (1: row by row, 3: column by column, otherwise not at all), a negative `INFOG(1)` means failure.
-/

namespace Kwant.Schur

open Matrix
open Kwant.Mumps (Err DT)

variable {K : Type} [Field K]

/-! ### Specification -/

/-- The other rows and columns. -/
abbrev Others {n k : ℕ} (idx : Fin k → Fin n) : Type := {j : Fin n // j ∉ Set.range idx}

/-- The block of the other rows and columns. -/
def rest {n k : ℕ} (A : Matrix (Fin n) (Fin n) K) (idx : Fin k → Fin n) : Matrix (Others idx) (Others idx) K := A.submatrix (fun j => j.1) fun j => j.1

/-- The Schur complement of a matrix to the rows and columns `idx`: `A_II - A_IJ A_JJ⁻¹ A_JI`, where `J` are the other rows and columns. -/
noncomputable def schurOf {n k : ℕ} (A : Matrix (Fin n) (Fin n) K) (idx : Fin k → Fin n) : Matrix (Fin k) (Fin k) K :=
  A.submatrix idx idx - A.submatrix idx (fun j : Others idx => j.1) * (rest A idx)⁻¹ * A.submatrix (fun j : Others idx => j.1) idx

/-! ### The library -/

/-- What the library is given: the fields of the MUMPS structure that are set. -/
structure Job (K : Type) where
  n : ℕ
  irn : List ℤ
  jcn : List ℤ
  a : List K
  /-- `ICNTL(7)` -/
  ordering : ℤ
  /-- `ICNTL(19)` -/
  icntl19 : ℤ
  sizeSchur : ℕ
  listvar : List ℤ

/-- The element of the assembled matrix at a position (counted from 1). -/
def Job.elem (J : Job K) (i j : ℤ) : K := (((J.irn.zip J.jcn).zip J.a).map fun t => if t.1 = (i, j) then t.2 else 0).sum

/-- The matrix a job is about. -/
def Job.matrix (J : Job K) : Matrix (Fin J.n) (Fin J.n) K := of fun i j => J.elem ((i : ℕ) + 1) ((j : ℕ) + 1)

/-- MUMPS, for `JOB = 4`: `INFOG(1)`, and the contents of the memory for the Schur complement, given what has been there. -/
structure Lib (K : Type) [Field K] where
  run : Job K → List K → ℤ × List K
  law : ∀ J buf, 0 ≤ (run J buf).1 → ∃ idx : Fin J.sizeSchur → Fin J.n, Function.Injective idx ∧ (∀ p : Fin J.sizeSchur, J.listvar[(p : ℕ)]? = some (((idx p : ℕ) : ℤ) + 1)) ∧
    IsUnit (rest J.matrix idx) ∧
    ∀ p q : Fin J.sizeSchur, (run J buf).2[(p : ℕ) * J.sizeSchur + q]? =
      if J.icntl19 = 1 then some (schurOf J.matrix idx p q) else if J.icntl19 = 3 then some (schurOf J.matrix idx q p) else buf[(p : ℕ) * J.sizeSchur + q]?

/-! ### Model -/

/-- A sparse matrix in coordinate format (`scipy.sparse.coo_matrix`). -/
structure Coo (K : Type) where
  rows : ℕ
  cols : ℕ
  entries : List (ℕ × ℕ × K)
  dtype : DT

/-- The matrix element: entries with the same position add up. -/
def Coo.elem (a : Coo K) (i j : ℕ) : K := (a.entries.map fun t => if t.1 = i ∧ t.2.1 = j then t.2.2 else 0).sum

/-- An argument that is no sparse matrix, or the sparse matrix that `tocoo()` returns. -/
inductive Arg (K : Type)
  | dense
  | sparse (a : Coo K)

/-- `_make_assembled_from_coo` (l.507-517), `set_assembled_matrix` (_mumps.pyx l.165-174), `_make_mumps_index_array` (l.533-537), `set_schur` (_mumps.pyx l.204-216) and l.484-492. -/
def job (a : Coo K) (indices : List ℤ) (ordering : ℤ) : Job K :=
  { n := a.rows, irn := a.entries.map fun t => (t.1 : ℤ) + 1, jcn := a.entries.map fun t => (t.2.1 : ℤ) + 1, a := a.entries.map fun t => t.2.2, ordering := ordering, icntl19 := 1,
    sizeSchur := indices.length, listvar := indices.map (· + 1) }

/-- `schur_complement` (l.463-503, without statistics).  `ndim` and `indices` are the dimension and the elements of the array of indices; an unknown ordering is `none`; `uninit` is the content of
`np.empty` (row by row).  The result is the array, given by its elements. -/
def schurComplement (L : Lib K) (uninit : List K) (a : Arg K) (ndim : ℕ) (indices : List ℤ) (ordering : Option ℤ) (_ooc : Bool) (_pivotTol : ℚ) : Except Err (ℕ → ℕ → Option K) :=
  match a with
  | .dense => .error .value
  | .sparse a =>
    if a.rows ≠ a.cols then .error .value
    else if ndim ≠ 1 then .error .value
    else match ordering with
      | none => .error .value
      | some o =>
        if a.dtype ≠ .z then .error .attribute
        else
          let buf := (L.run (job a indices o) uninit).2
          .ok fun p q => buf[p * indices.length + q]?

/-! ### What the Schur complement is good for -/

theorem sum_split {n k : ℕ} {idx : Fin k → Fin n} (h : Function.Injective idx) (f : Fin n → K) : ∑ j, f j = ∑ q, f (idx q) + ∑ j : Others idx, f j.1 := by
  classical
  rw [← Fintype.sum_subtype_add_sum_subtype (fun j => j ∈ Set.range idx) f]
  congr 1
  · convert (Fintype.sum_equiv (Equiv.ofInjective idx h) (fun q => f (idx q)) (fun j : {x // x ∈ Set.range idx} => f j.1) fun q => rfl).symm

/-- Elimination: if `A x` vanishes outside of the given rows, the Schur complement maps the given components of `x` to the given components of `A x`. -/
theorem schur_eliminates {n k : ℕ} {A : Matrix (Fin n) (Fin n) K} {idx : Fin k → Fin n} (h : Function.Injective idx)
    (hu : IsUnit (rest A idx)) (x : Fin n → K) (h0 : ∀ j, j ∉ Set.range idx → (A *ᵥ x) j = 0) :
    schurOf A idx *ᵥ (x ∘ idx) = (A *ᵥ x) ∘ idx := by
  classical
  set J := Others idx
  set B : Matrix J J K := rest A idx
  have e : ∀ i, (A *ᵥ x) i = ∑ q, A i (idx q) * x (idx q) + ∑ j : J, A i j * x j := fun i => sum_split h fun j => A i j * x j
  have hB : B *ᵥ (fun j : J => x j) = - (A.submatrix (fun j : J => j.1) idx *ᵥ (x ∘ idx)) := by
    funext j
    have h1 := h0 j.1 j.2
    rw [e] at h1
    change ∑ j' : J, A j j' * x j' = - ∑ q, A j (idx q) * x (idx q)
    rw [eq_neg_iff_add_eq_zero, add_comm]
    exact h1
  have hX : (fun j : J => x j) = - (B⁻¹ *ᵥ (A.submatrix (fun j : J => j.1) idx *ᵥ (x ∘ idx))) := by
    rw [← mulVec_neg, ← hB, mulVec_mulVec, nonsing_inv_mul _ ((isUnit_iff_isUnit_det _).mp hu), one_mulVec]
  rw [schurOf, sub_mulVec, ← mulVec_mulVec, ← mulVec_mulVec]
  funext p
  have h2 : (A.submatrix idx (fun j : J => j.1) *ᵥ (B⁻¹ *ᵥ (A.submatrix (fun j : J => j.1) idx *ᵥ (x ∘ idx)))) p = - ∑ j : J, A (idx p) j * x j := by
    have : B⁻¹ *ᵥ (A.submatrix (fun j : J => j.1) idx *ᵥ (x ∘ idx)) = - fun j : J => x j := by rw [hX, neg_neg]
    rw [this, mulVec_neg]
    rfl
  change (A.submatrix idx idx *ᵥ (x ∘ idx)) p - (A.submatrix idx (fun j : J => j.1) *ᵥ (B⁻¹ *ᵥ (A.submatrix (fun j : J => j.1) idx *ᵥ (x ∘ idx)))) p = (A *ᵥ x) (idx p)
  rw [h2, e, sub_neg_eq_add]
  rfl

/-- The inverse of the Schur complement is the block of the inverse matrix. -/
theorem schur_inverse {n k : ℕ} {A : Matrix (Fin n) (Fin n) K} {idx : Fin k → Fin n} (h : Function.Injective idx)
    (hu : IsUnit (rest A idx)) (hA : IsUnit A) : schurOf A idx * A⁻¹.submatrix idx idx = 1 := by
  classical
  have hd := (isUnit_iff_isUnit_det _).mp hA
  ext p q
  have hx : A *ᵥ (fun i => A⁻¹ i (idx q)) = fun i => (1 : Matrix (Fin n) (Fin n) K) i (idx q) := by
    rw [← mul_nonsing_inv A hd]
    rfl
  have h1 := congrFun (schur_eliminates h hu (fun i => A⁻¹ i (idx q)) fun j hj => by
    rw [hx]
    exact one_apply_ne fun e => hj ⟨q, e.symm⟩) p
  rw [hx] at h1
  change (schurOf A idx *ᵥ ((fun i => A⁻¹ i (idx q)) ∘ idx)) p = (1 : Matrix (Fin k) (Fin k) K) p q
  rw [h1]
  change (1 : Matrix (Fin n) (Fin n) K) (idx p) (idx q) = _
  rw [one_apply, one_apply]
  exact if_congr h.eq_iff rfl rfl

/-! ### Properties -/

theorem job_elem (a : Coo K) (indices : List ℤ) (o : ℤ) (i j : ℕ) : (job a indices o).elem ((i : ℤ) + 1) ((j : ℤ) + 1) = a.elem i j := by
  rw [Job.elem, Coo.elem, job]
  simp only
  congr 1
  induction a.entries with
  | nil => rfl
  | cons t l ih =>
    simp only [List.map_cons, List.zip_cons_cons, ih]
    congr 1
    refine if_congr ?_ rfl rfl
    rw [Prod.mk.injEq, add_left_inj, add_left_inj, Nat.cast_inj, Nat.cast_inj]

/-- C196.  If MUMPS succeeds, the returned array is the Schur complement of the matrix to the given rows and columns, in their order: `A_II - A_IJ A_JJ⁻¹ A_JI`. -/
theorem C196_schur (L : Lib K) (uninit : List K) {a : Coo K} {ndim : ℕ} {indices : List ℤ} {o : ℤ} {ooc : Bool} {tol : ℚ} {S : ℕ → ℕ → Option K}
    (h : schurComplement L uninit (.sparse a) ndim indices (some o) ooc tol = .ok S) (hs : 0 ≤ (L.run (job a indices o) uninit).1) :
    ∃ idx : Fin indices.length → Fin a.rows, Function.Injective idx ∧ (∀ p, indices[p] = ((idx p : ℕ) : ℤ)) ∧
      IsUnit (rest (of fun i j => a.elem i j : Matrix (Fin a.rows) (Fin a.rows) K) idx) ∧
      ∀ p q : Fin indices.length, S p q = some (schurOf (of fun i j => a.elem i j : Matrix (Fin a.rows) (Fin a.rows) K) idx p q) := by
  obtain ⟨idx, h1, h2, h3, h4⟩ := L.law (job a indices o) uninit hs
  have hm : (job a indices o).matrix = (of fun i j => a.elem i j : Matrix (Fin a.rows) (Fin a.rows) K) := by
    ext i j
    exact job_elem a indices o i j
  rw [hm] at h3
  refine ⟨idx, h1, ?_, h3, ?_⟩
  · intro p
    have h5 := h2 p
    change (indices.map (· + 1))[(p : ℕ)]? = _ at h5
    rw [List.getElem?_map, List.getElem?_eq_getElem p.2] at h5
    simpa using h5
  · intro p q
    have hS : S = fun p q => (L.run (job a indices o) uninit).2[p * indices.length + q]? := by
      rw [schurComplement] at h
      simp only at h
      split_ifs at h
      exact (Except.ok.inj h).symm
    rw [hS]
    have h5 := h4 p q
    rw [if_pos (show (job a indices o).icntl19 = 1 from rfl), hm] at h5
    exact h5

/-- C196: if the matrix is invertible, the returned array is invertible and its inverse is the block of the inverse matrix. -/
theorem C196_inverse (L : Lib K) (uninit : List K) {a : Coo K} {ndim : ℕ} {indices : List ℤ} {o : ℤ} {ooc : Bool} {tol : ℚ} {S : ℕ → ℕ → Option K}
    (h : schurComplement L uninit (.sparse a) ndim indices (some o) ooc tol = .ok S) (hs : 0 ≤ (L.run (job a indices o) uninit).1)
    (hA : IsUnit (of fun i j => a.elem i j : Matrix (Fin a.rows) (Fin a.rows) K)) :
    ∃ (idx : Fin indices.length → Fin a.rows) (s : Matrix (Fin indices.length) (Fin indices.length) K), (∀ p, indices[p] = ((idx p : ℕ) : ℤ)) ∧ (∀ p q : Fin indices.length, S p q = some (s p q)) ∧
      s * (of fun i j => a.elem i j : Matrix (Fin a.rows) (Fin a.rows) K)⁻¹.submatrix idx idx = 1 := by
  obtain ⟨idx, h1, h2, h3, h4⟩ := C196_schur L uninit h hs
  exact ⟨idx, _, h2, h4, schur_inverse h1 h3 hA⟩

/-- C196: the exceptions, and that there are no others; in particular none if MUMPS fails. -/
theorem C196_errors (L : Lib K) (uninit : List K) (a : Arg K) (ndim : ℕ) (indices : List ℤ) (ordering : Option ℤ) (ooc : Bool) (tol : ℚ) :
    (∃ S, schurComplement L uninit a ndim indices ordering ooc tol = .ok S) ↔ ∃ c, a = .sparse c ∧ c.rows = c.cols ∧ ndim = 1 ∧ ordering ≠ none ∧ c.dtype = .z := by
  cases a with
  | dense => simp [schurComplement]
  | sparse c =>
    cases ordering with
    | none => simp [schurComplement]
    | some o =>
      simp only [schurComplement]
      split_ifs with h1 h2 h3
      · simp [h1]
      · simp [h2]
      · simp [h3]
      · simp only [not_not] at h1 h2 h3
        simp [h1, h2, h3]

/-- `ooc` and `pivot_tol` have no effect at all. -/
theorem C196_ignored (L : Lib K) (uninit : List K) (a : Arg K) (ndim : ℕ) (indices : List ℤ) (ordering : Option ℤ) (ooc ooc' : Bool) (tol tol' : ℚ) :
    schurComplement L uninit a ndim indices ordering ooc tol = schurComplement L uninit a ndim indices ordering ooc' tol' := rfl

/-! ### Examples -/

/-- A library that can do nothing. -/
def failing (K : Type) [Field K] : Lib K := ⟨fun _ buf => (-10, buf), fun _ _ h => absurd h (by norm_num)⟩

/-- Whenever MUMPS fails (and leaves the memory as it is), `schur_complement` returns the uninitialized memory, without exception. -/
theorem C196_counterexample (L : Lib K) (uninit : List K) (a : Coo K) (hsq : a.rows = a.cols) (hz : a.dtype = .z) (indices : List ℤ) (o : ℤ)
    (hf : L.run (job a indices o) uninit = (-10, uninit)) :
    schurComplement L uninit (.sparse a) 1 indices (some o) false (1 / 100) = .ok fun p q => uninit[p * indices.length + q]? := by
  simp [schurComplement, hsq, hz, hf]

open Classical in
/-- A library that answers the question whenever it has an answer, written without knowledge of the contract's `idx`. -/
noncomputable def perfect (K : Type) [Field K] : Lib K where
  run J buf :=
    if h : J.icntl19 = 1 ∧ ∃ idx : Fin J.sizeSchur → Fin J.n, Function.Injective idx ∧ (∀ p : Fin J.sizeSchur, J.listvar[(p : ℕ)]? = some (((idx p : ℕ) : ℤ) + 1)) ∧
      IsUnit (rest J.matrix idx)
    then (0, List.ofFn fun t : Fin (J.sizeSchur * J.sizeSchur) => schurOf J.matrix h.2.choose (finProdFinEquiv.symm t).1 (finProdFinEquiv.symm t).2)
    else (-10, buf)
  law J buf h := by
    by_cases hc : J.icntl19 = 1 ∧ ∃ idx : Fin J.sizeSchur → Fin J.n, Function.Injective idx ∧ (∀ p : Fin J.sizeSchur, J.listvar[(p : ℕ)]? = some (((idx p : ℕ) : ℤ) + 1)) ∧ IsUnit (rest J.matrix idx)
    · refine ⟨hc.2.choose, hc.2.choose_spec.1, hc.2.choose_spec.2.1, hc.2.choose_spec.2.2, fun p q => ?_⟩
      rw [if_pos hc.1]
      simp only [dif_pos hc]
      have hlt : (p : ℕ) * J.sizeSchur + q < J.sizeSchur * J.sizeSchur := by
        have := p.2
        have := q.2
        nlinarith
      have e : (⟨(p : ℕ) * J.sizeSchur + q, hlt⟩ : Fin (J.sizeSchur * J.sizeSchur)) = finProdFinEquiv (p, q) := by
        apply Fin.ext
        simp only [finProdFinEquiv_apply_val]
        ring
      rw [List.getElem?_ofFn, dif_pos hlt, e, Equiv.symm_apply_apply]
    · simp only [dif_neg hc] at h
      norm_num at h

/-- The matrix `[[1, 2], [3, 4]]` with one element in two pieces. -/
def exCoo : Coo ℚ := ⟨2, 2, [(0, 0, 1), (0, 1, 2), (1, 0, 3), (1, 1, 3), (1, 1, 1)], .z⟩

theorem C196_example (uninit : List ℚ) : 0 ≤ ((perfect ℚ).run (job exCoo [1] 7) uninit).1 ∧
    ∃ S, schurComplement (perfect ℚ) uninit (.sparse exCoo) 1 [1] (some 7) false (1 / 100) = .ok S ∧ S 0 0 = some (-2) := by
  have hm : (job exCoo [1] 7).matrix = (!![1, 2; 3, 4] : Matrix (Fin 2) (Fin 2) ℚ) := by
    ext i j
    change (job exCoo [1] 7).elem _ _ = _
    rw [job_elem]
    change Fin 2 at i j
    fin_cases i <;> fin_cases j <;> norm_num [Coo.elem, exCoo]
  have hc : ∃ idx : Fin 1 → Fin 2, Function.Injective idx ∧ (∀ p : Fin 1, [(1 : ℤ) + 1][(p : ℕ)]? = some (((idx p : ℕ) : ℤ) + 1)) ∧
      IsUnit (rest (!![1, 2; 3, 4] : Matrix (Fin 2) (Fin 2) ℚ) idx) := by
    refine ⟨fun _ => 1, fun p q _ => Subsingleton.elim p q, fun p => by fin_cases p; rfl, ?_⟩
    have hsub : ∀ j : {j // j ∉ Set.range fun _ : Fin 1 => (1 : Fin 2)}, j.1 = 0 := by
      rintro ⟨j, hj⟩
      fin_cases j
      · rfl
      · exact absurd ⟨0, rfl⟩ hj
    rw [show rest (!![1, 2; 3, 4] : Matrix (Fin 2) (Fin 2) ℚ) (fun _ : Fin 1 => (1 : Fin 2)) = 1 from by
      ext i j
      have hij : i = j := Subtype.ext ((hsub i).trans (hsub j).symm)
      rw [hij, one_apply_eq, rest, submatrix_apply, hsub j]
      rfl]
    exact isUnit_one
  have hs : 0 ≤ ((perfect ℚ).run (job exCoo [1] 7) uninit).1 := by
    rw [perfect]
    simp only
    rw [dif_pos]
    obtain ⟨idx, g1, g2, g3⟩ := hc
    refine ⟨rfl, idx, g1, g2, ?_⟩
    rw [← hm] at g3
    exact g3
  refine ⟨hs, ?_⟩
  obtain ⟨S, hS⟩ := (C196_errors (perfect ℚ) uninit (.sparse exCoo) 1 [1] (some 7) false (1 / 100)).mpr ⟨exCoo, rfl, rfl, rfl, by simp, rfl⟩
  refine ⟨S, hS, ?_⟩
  obtain ⟨idx, h1, h2, h3, h4⟩ := C196_schur (perfect ℚ) uninit hS hs
  have hA : (of fun i j => exCoo.elem i j : Matrix (Fin 2) (Fin 2) ℚ) = !![1, 2; 3, 4] := by
    rw [← hm]
    ext i j
    exact (job_elem exCoo [1] 7 i j).symm
  change Fin 1 → Fin 2 at idx
  change IsUnit (rest (of fun i j => exCoo.elem i j : Matrix (Fin 2) (Fin 2) ℚ) idx) at h3
  rw [hA] at h3
  have h5 : S 0 0 = some (schurOf (of fun i j => exCoo.elem i j : Matrix (Fin 2) (Fin 2) ℚ) idx 0 0) := h4 0 0
  rw [hA] at h5
  have hi : idx 0 = 1 := by
    have h6 : (1 : ℤ) = ((idx 0 : ℕ) : ℤ) := h2 0
    apply Fin.ext
    exact_mod_cast h6.symm
  have h7 := congrFun (schur_eliminates (A := !![1, 2; 3, 4]) h1 h3 ![-2, 1] fun j hj => by
    fin_cases j
    · norm_num [mulVec, dotProduct, Fin.sum_univ_two]
    · exact absurd ⟨0, hi⟩ hj) 0
  rw [h5]
  norm_num [mulVec, dotProduct, Fin.sum_univ_two, hi] at h7
  rw [h7]

end Kwant.Schur
