import Verif.Physics.DiscProj
import Mathlib.Data.Matrix.Block
import Mathlib.Algebra.BigOperators.Fin
import Mathlib.Data.Prod.Lex
import Mathlib.Data.Finset.Sort
import Mathlib.LinearAlgebra.Matrix.Hermitian
import Mathlib.LinearAlgebra.Matrix.Charpoly.Basic
import Mathlib.LinearAlgebra.Matrix.Charpoly.Coeff
import Mathlib.LinearAlgebra.Matrix.Block
import Mathlib.Algebra.Polynomial.Roots

/-!
C185: from the conservation law of a builder to the projectors of its `DiscreteSymmetry`: kwant/builder.py, `_translate_cons_law` (l.1994-2029) and
`_FinalizedBuilderMixin.discrete_symmetry` (l.2101-2124).

Simplifications: exact arithmetic; `np.linalg.eigh` and `eigvalsh` by contracts; the value of the law at a site includes its dependence on parameters;
dictionaries behave like functions; `operator.Density(..).tocoo()` is the block diagonal matrix of the onsite values (C56), with one kind of exception for all
wrong shapes; `np.round` is any function to a nearest integer.
-/

set_option linter.unusedSectionVars false

namespace Kwant.ConsLaw
open Matrix Complex Kwant.DiscSym

/-- A value of a conservation law: a number or a square matrix. -/
inductive Val where
  | scalar (c : ℂ)
  | mat (k : ℕ) (a : Matrix (Fin k) (Fin k) ℂ)

/-- A conservation law: a function (or dictionary), or a constant (builder.py l.1998, l.2011, l.2019). -/
inductive Law (m : ℕ) where
  | func (f : Fin m → Val)
  | const (v : Val)

/-- Exceptions: wrong shapes (LinAlgError or ValueError) and "Conservation law must have integer eigenvalues." (l.2106) -/
inductive Err where
  | bad | notInteger
  deriving DecidableEq

/-- Numerical functions: `np.linalg.eigh`, `np.linalg.eigvalsh` and `np.round`. -/
structure Num where
  eigh : ∀ k, Matrix (Fin k) (Fin k) ℂ → (Fin k → ℝ) × Matrix (Fin k) (Fin k) ℂ
  eigvalsh : ∀ k, Matrix (Fin k) (Fin k) ℂ → Fin k → ℝ
  rnd : ℝ → ℤ

/-- `vals` of one site (l.1999-2003, l.2012-2014, l.2020-2027) -/
noncomputable def siteVals (N : Num) {m : ℕ} (norbs : Fin m → ℕ) (law : Law m) (i : Fin m) : Except Err Val :=
  match law with
  | .func f => if norbs i = 1 then .ok (f i) else
    match f i with
    | .scalar _ => .error .bad
    | .mat k a => .ok (.mat k (diagonal fun j => (N.eigvalsh k a j : ℂ)))
  | .const (.scalar c) => .ok (.scalar c)
  | .const (.mat k a) => .ok (.mat k (diagonal fun j => ((N.eigh k a).1 j : ℂ)))

/-- `vecs` of one site (l.2005-2009, l.2015-2017, l.2020-2027) -/
noncomputable def siteVecs (N : Num) {m : ℕ} (norbs : Fin m → ℕ) (law : Law m) (i : Fin m) : Except Err Val :=
  match law with
  | .func f => if norbs i = 1 then .ok (.scalar 1) else
    match f i with
    | .scalar _ => .error .bad
    | .mat k a => .ok (.mat k (N.eigh k a).2)
  | .const (.scalar _) => .ok (.scalar 1)
  | .const (.mat k a) => .ok (.mat k (N.eigh k a).2)

/-- The block of an onsite operator: a number counts as a 1 × 1 matrix; the shape must be that of the site. -/
def block (k : ℕ) : Val → Except Err (Matrix (Fin k) (Fin k) ℂ)
  | .scalar c => if k = 1 then .ok fun _ _ => c else .error .bad
  | .mat k' a => if h : k = k' then .ok (a.submatrix (Fin.cast h) (Fin.cast h)) else .error .bad

/-- The block diagonal matrix: `Density(syst, op, check_hermiticity=False).tocoo(..)` (l.2037, l.2104, l.2111); orbitals are counted site by site. -/
def blockDiag {m : ℕ} {norbs : Fin m → ℕ} (b : ∀ i, Matrix (Fin (norbs i)) (Fin (norbs i)) ℂ) : Mat (∑ i, norbs i) :=
  (blockDiagonal' b).submatrix finSigmaFinEquiv.symm finSigmaFinEquiv.symm

open Classical in
/-- `operator(..).tocoo(..)` of the onsite values. -/
noncomputable def density {m : ℕ} (norbs : Fin m → ℕ) (f : Fin m → Except Err Val) : Except Err (Mat (∑ i, norbs i)) :=
  if h : ∀ i, ∃ b, f i >>= block (norbs i) = .ok b then .ok (blockDiag fun i => (h i).choose) else .error .bad

/-- `np.round` of a complex number. -/
def roundC (N : Num) (z : ℂ) : ℤ × ℤ := (N.rnd z.re, N.rnd z.im)

/-- The tolerance of `np.allclose` -/
noncomputable def tol (b : ℝ) : ℝ := 1e-8 + 1e-5 * b

/-- One entry of `np.allclose(eigvals.data, np.round(eigvals.data))` (l.2105) -/
def closeToRound (N : Num) (z : ℂ) : Prop :=
  ‖z - ((N.rnd z.re : ℂ) + (N.rnd z.im : ℂ) * I)‖ ≤ tol ‖((N.rnd z.re : ℂ) + (N.rnd z.im : ℂ) * I)‖

/-- The entries of `np.round(eigvals).tocsr() + 0.5 * identity` (l.2108-2110), ordered as numpy orders complex numbers. -/
def entry (N : Num) {n : ℕ} (vals : Mat n) (a b : Fin n) : ℚ ×ₗ ℚ :=
  toLex ((N.rnd (vals a b).re : ℚ) + (if a = b then 1 / 2 else 0), (N.rnd (vals a b).im : ℚ))

/-- `sorted(np.unique(eigvals.data))` after `eliminate_zeros` (l.2111, l.2114) -/
def labels (N : Num) {n : ℕ} (vals : Mat n) : List (ℚ ×ₗ ℚ) :=
  ((Finset.univ.image fun p : Fin n × Fin n => entry N vals p.1 p.2).filter (· ≠ toLex (0, 0))).sort (· ≤ ·)

/-- `eigvecs.dot(eigvals == val)` (l.2113), as the list of its columns. -/
noncomputable def projector (N : Num) {n : ℕ} (vals vecs : Mat n) (val : ℚ ×ₗ ℚ) : Proj n :=
  (List.finRange n).map fun b => fun a => (vecs * Matrix.of fun c d => if entry N vals c d = val then (1 : ℂ) else 0) a b

open Classical in
/-- The part of `discrete_symmetry` about the conservation law (l.2102-2116): the projectors. -/
noncomputable def projectors (N : Num) {m : ℕ} (norbs : Fin m → ℕ) (law : Law m) : Except Err (List (Proj (∑ i, norbs i))) :=
  match density norbs (siteVals N norbs law) with
  | .error e => .error e
  | .ok vals =>
    if ¬ ∀ a b, closeToRound N (vals a b) then .error .notInteger
    else
      match density norbs (siteVecs N norbs law) with
      | .error e => .error e
      | .ok vecs => .ok ((labels N vals).map (projector N vals vecs))

/-! ### Specification -/

/-- Contracts of the numerical functions: for Hermitian matrices the eigenvalues are ascending and real, `eigh` returns an orthonormal basis of eigenvectors;
`np.round` is within 1/2. -/
structure NumOk (N : Num) : Prop where
  ascending : ∀ k a, a.IsHermitian → Monotone (N.eigh k a).1
  unitary : ∀ k a, a.IsHermitian → (N.eigh k a).2ᴴ * (N.eigh k a).2 = 1
  eig : ∀ k a, a.IsHermitian → a * (N.eigh k a).2 = (N.eigh k a).2 * diagonal fun j => ((N.eigh k a).1 j : ℂ)
  ascending' : ∀ k a, a.IsHermitian → Monotone (N.eigvalsh k a)
  eig' : ∀ k a, a.IsHermitian → ∃ v, vᴴ * v = 1 ∧ a * v = v * diagonal fun j => (N.eigvalsh k a j : ℂ)
  round : ∀ x : ℝ, |x - N.rnd x| ≤ 1 / 2

/-- The value of the law at a site. -/
def Law.at {m : ℕ} (law : Law m) (i : Fin m) : Val :=
  match law with
  | .func f => f i
  | .const v => v

/-- The law is an onsite operator with the blocks `q`, all Hermitian. -/
structure IsLaw {m : ℕ} (norbs : Fin m → ℕ) (law : Law m) (q : ∀ i, Matrix (Fin (norbs i)) (Fin (norbs i)) ℂ) : Prop where
  at_site : ∀ i, (∃ c, law.at i = .scalar c ∧ norbs i = 1 ∧ q i = fun _ _ => c) ∨ ∃ a : Matrix (Fin (norbs i)) (Fin (norbs i)) ℂ, law.at i = .mat (norbs i) a ∧ q i = a
  herm : ∀ i, (q i).IsHermitian

/-- The number `x` is an eigenvalue of `a`. -/
def IsEig {n : ℕ} (a : Mat n) (x : ℝ) : Prop := ∃ v : Fin n → ℂ, v ≠ 0 ∧ a *ᵥ v = (x : ℂ) • v

/-! ### Blocks -/

theorem block_law {m : ℕ} {norbs : Fin m → ℕ} {law : Law m} {q : ∀ i, Matrix (Fin (norbs i)) (Fin (norbs i)) ℂ} (h : IsLaw norbs law q) (i : Fin m) :
    block (norbs i) (law.at i) = .ok (q i) := by
  rcases h.at_site i with ⟨c, h1, h2, h3⟩ | ⟨a, h1, h2⟩
  · rw [h1, block, if_pos h2, h3]
  · rw [h1, block, dif_pos rfl, h2]
    rfl

theorem density_ok {m : ℕ} {norbs : Fin m → ℕ} {f : Fin m → Except Err Val} {b : ∀ i, Matrix (Fin (norbs i)) (Fin (norbs i)) ℂ}
    (h : ∀ i, f i >>= block (norbs i) = .ok (b i)) : density norbs f = .ok (blockDiag b) := by
  have hx : ∀ i, ∃ b, f i >>= block (norbs i) = .ok b := fun i => ⟨b i, h i⟩
  unfold density
  rw [dif_pos hx]
  congr 2
  funext i
  exact Except.ok.inj ((hx i).choose_spec.symm.trans (h i))

theorem blockDiag_mul {m : ℕ} {norbs : Fin m → ℕ} (a b : ∀ i, Matrix (Fin (norbs i)) (Fin (norbs i)) ℂ) :
    blockDiag a * blockDiag b = blockDiag fun i => a i * b i := by
  unfold blockDiag
  rw [submatrix_mul_equiv, blockDiagonal'_mul]

theorem blockDiag_one {m : ℕ} {norbs : Fin m → ℕ} : blockDiag (norbs := norbs) (fun _ => 1) = 1 := by
  unfold blockDiag
  have : (fun i => 1 : ∀ i : Fin m, Matrix (Fin (norbs i)) (Fin (norbs i)) ℂ) = 1 := rfl
  rw [this, blockDiagonal'_one]
  exact submatrix_one_equiv _

theorem blockDiag_herm {m : ℕ} {norbs : Fin m → ℕ} (a : ∀ i, Matrix (Fin (norbs i)) (Fin (norbs i)) ℂ) : (blockDiag a)ᴴ = blockDiag fun i => (a i)ᴴ := by
  unfold blockDiag
  rw [conjTranspose_submatrix, blockDiagonal'_conjTranspose]

theorem blockDiag_diagonal {m : ℕ} {norbs : Fin m → ℕ} (w : ∀ i, Fin (norbs i) → ℝ) :
    blockDiag (norbs := norbs) (fun i => diagonal fun j => (w i j : ℂ)) = diagonal fun a => (w (finSigmaFinEquiv.symm a).1 (finSigmaFinEquiv.symm a).2 : ℂ) := by
  unfold blockDiag
  rw [blockDiagonal'_diagonal]
  ext a b
  rw [submatrix_apply, diagonal_apply, diagonal_apply]
  simp only [EmbeddingLike.apply_eq_iff_eq]

/-- Ascending eigenvalues are determined by the matrix. -/
theorem eigs_unique {k : ℕ} {a v v' : Matrix (Fin k) (Fin k) ℂ} {w w' : Fin k → ℝ} (hv : vᴴ * v = 1) (hv' : v'ᴴ * v' = 1) (h : a * v = v * diagonal fun j => (w j : ℂ))
    (h' : a * v' = v' * diagonal fun j => (w' j : ℂ)) (hm : Monotone w) (hm' : Monotone w') : w = w' := by
  have hc : ∀ (v : Matrix (Fin k) (Fin k) ℂ) (w : Fin k → ℝ), vᴴ * v = 1 → a * v = v * diagonal (fun j => (w j : ℂ)) →
      a.charpoly.roots = (Finset.univ.val.map fun j => (w j : ℂ)) := by
    intro v w hv h
    have ha : a = v * diagonal (fun j => (w j : ℂ)) * vᴴ := by rw [← h, Matrix.mul_assoc, mul_eq_one_comm.mp hv, Matrix.mul_one]
    have hch : a.charpoly = (diagonal fun j => (w j : ℂ)).charpoly := by
      let u : (Matrix (Fin k) (Fin k) ℂ)ˣ := ⟨v, vᴴ, mul_eq_one_comm.mp hv, hv⟩
      have := Matrix.charpoly_units_conj u (diagonal fun j => (w j : ℂ))
      rw [← this, ha, ← Matrix.coe_units_inv]
      rfl
    rw [hch, Matrix.charpoly_diagonal]
    have := Polynomial.roots_multiset_prod_X_sub_C (Finset.univ.val.map fun j => (w j : ℂ))
    rw [Multiset.map_map] at this
    exact this
  have e := (hc v w hv h).symm.trans (hc v' w' hv' h')
  have e2 : Finset.univ.val.map w = Finset.univ.val.map w' := by
    have := congrArg (Multiset.map Complex.re) e
    rw [Multiset.map_map, Multiset.map_map] at this
    exact this
  have hl : ∀ w : Fin k → ℝ, Finset.univ.val.map w = ↑(List.ofFn w) := fun w => by
    rw [Fin.univ_val_map]
  rw [hl, hl, Multiset.coe_eq_coe] at e2
  have hs : ∀ w : Fin k → ℝ, Monotone w → (List.ofFn w).Pairwise (· ≤ ·) := fun w hw => by
    rw [List.pairwise_ofFn]
    exact fun i j hij => hw hij.le
  have := e2.eq_of_pairwise (fun a b _ _ h1 h2 => le_antisymm h1 h2) (hs w hm) (hs w' hm')
  exact List.ofFn_injective this

/-- The blocks of the two operators of the code. -/
theorem site_blocks {N : Num} (hN : NumOk N) {m : ℕ} {norbs : Fin m → ℕ} {law : Law m} {q : ∀ i, Matrix (Fin (norbs i)) (Fin (norbs i)) ℂ} (h : IsLaw norbs law q)
    (i : Fin m) : ∃ (w : Fin (norbs i) → ℝ) (v : Matrix (Fin (norbs i)) (Fin (norbs i)) ℂ), vᴴ * v = 1 ∧ q i * v = v * diagonal (fun j => (w j : ℂ)) ∧
      siteVals N norbs law i >>= block (norbs i) = .ok (diagonal fun j => (w j : ℂ)) ∧ siteVecs N norbs law i >>= block (norbs i) = .ok v := by
  have hh := h.herm i
  have one : norbs i = 1 → ∃ w : Fin (norbs i) → ℝ, q i = diagonal (fun j => (w j : ℂ)) := fun h1 => by
    refine ⟨fun j => (q i j j).re, ?_⟩
    ext a b
    have hab : a = b := by apply Fin.ext; omega
    subst hab
    rw [diagonal_apply_eq]
    have := hh.apply a a
    exact (Complex.conj_eq_iff_re.mp this).symm
  have one' : norbs i = 1 → block (norbs i) (.scalar 1) = .ok 1 := fun h1 => by
    rw [block, if_pos h1]
    congr 1
    ext a b
    have hab : a = b := by apply Fin.ext; omega
    subst hab
    rw [one_apply_eq]
  have hval : ∀ x : Val, (Except.ok x : Except Err Val) >>= block (norbs i) = block (norbs i) x := fun _ => rfl
  have hblock := block_law h i
  cases law with
  | func f =>
    by_cases h1 : norbs i = 1
    · obtain ⟨w, hw⟩ := one h1
      refine ⟨w, 1, by rw [conjTranspose_one, Matrix.one_mul], by rw [Matrix.one_mul, Matrix.mul_one, hw], ?_, ?_⟩
      · simp only [siteVals, if_pos h1, hval]
        rw [← hw]; exact hblock
      · simp only [siteVecs, if_pos h1, hval]
        exact one' h1
    · rcases h.at_site i with ⟨c, _, h2, _⟩ | ⟨a, ha, hq⟩
      · exact absurd h2 h1
      · have hf : f i = .mat (norbs i) a := ha
        rw [hq] at hh ⊢
        obtain ⟨v', hv1, hv2⟩ := hN.eig' _ a hh
        have heq : N.eigvalsh (norbs i) a = (N.eigh (norbs i) a).1 :=
          eigs_unique hv1 (hN.unitary _ a hh) hv2 (hN.eig _ a hh) (hN.ascending' _ a hh) (hN.ascending _ a hh)
        refine ⟨(N.eigh _ a).1, (N.eigh _ a).2, hN.unitary _ a hh, hN.eig _ a hh, ?_, ?_⟩
        · simp only [siteVals, if_neg h1, hf, hval]
          rw [block, dif_pos rfl, heq]
          rfl
        · simp only [siteVecs, if_neg h1, hf, hval]
          rw [block, dif_pos rfl]
          rfl
  | const x =>
    rcases h.at_site i with ⟨c, hc, h1, hq⟩ | ⟨a, ha, hq⟩
    · have hx : x = .scalar c := hc
      obtain ⟨w, hw⟩ := one h1
      subst hx
      refine ⟨w, 1, by rw [conjTranspose_one, Matrix.one_mul], by rw [Matrix.one_mul, Matrix.mul_one, hw], ?_, ?_⟩
      · simp only [siteVals, hval]
        rw [← hw]; exact hblock
      · simp only [siteVecs, hval]
        exact one' h1
    · have hx : x = .mat (norbs i) a := ha
      subst hx
      rw [hq] at hh ⊢
      refine ⟨(N.eigh _ a).1, (N.eigh _ a).2, hN.unitary _ a hh, hN.eig _ a hh, ?_, ?_⟩
      · simp only [siteVals, hval]
        rw [block, dif_pos rfl]
        rfl
      · simp only [siteVecs, hval]
        rw [block, dif_pos rfl]
        rfl

/-- The two operators: eigenvalues and an orthonormal basis of eigenvectors of the conserved quantity. -/
theorem operators {N : Num} (hN : NumOk N) {m : ℕ} {norbs : Fin m → ℕ} {law : Law m} {q : ∀ i, Matrix (Fin (norbs i)) (Fin (norbs i)) ℂ} (h : IsLaw norbs law q) :
    ∃ (w : Fin (∑ i, norbs i) → ℝ) (V : Mat (∑ i, norbs i)), Vᴴ * V = 1 ∧ blockDiag q * V = V * diagonal (fun a => (w a : ℂ)) ∧
      density norbs (siteVals N norbs law) = .ok (diagonal fun a => (w a : ℂ)) ∧ density norbs (siteVecs N norbs law) = .ok V := by
  choose w v h1 h2 h3 h4 using site_blocks hN h
  refine ⟨fun a => w (finSigmaFinEquiv.symm a).1 (finSigmaFinEquiv.symm a).2, blockDiag v, ?_, ?_, ?_, density_ok h4⟩
  · rw [blockDiag_herm, blockDiag_mul, ← blockDiag_one]
    congr 1
    funext i
    exact h1 i
  · rw [← blockDiag_diagonal, blockDiag_mul, blockDiag_mul]
    congr 1
    funext i
    exact h2 i
  · rw [density_ok h3, blockDiag_diagonal]

end Kwant.ConsLaw
