import Mathlib.Data.Complex.Basic
import Mathlib.Data.Real.Sqrt
import Mathlib.LinearAlgebra.Matrix.ConjTranspose
import Mathlib.LinearAlgebra.UnitaryGroup

/-!
# Model of `kwant/linalg/decomp_schur.py`: conversion of a real Schur form

Arrays are functions on pairs of natural numbers together with their size `n`;
entries outside of the size are never read.  Floating point numbers are real
(complex) numbers.
-/

set_option linter.unusedSectionVars false

namespace Kwant.Schur

open Matrix

/-- A two-dimensional array. -/
abbrev Arr (K : Type) := ℕ → ℕ → K

/-- A 2x2 array. -/
abbrev Mat2 := Matrix (Fin 2) (Fin 2) ℂ

/-- `np.diagonal(t, -1).nonzero()[0]`, the positions of the 2x2 blocks
(decomp_schur.py l.112, l.213, l.430, l.495; lapack.pyx l.289, l.578). -/
def blockpos {K : Type} [Zero K] [DecidableEq K] (n : ℕ) (t : Arr K) : List ℕ :=
  (List.range (n - 1)).filter (fun i => decide (t (i + 1) i ≠ 0))

/-- `t.astype(complex)` (decomp_schur.py l.118-119). -/
def toC (t : Arr ℝ) : Arr ℂ := fun r c => (t r c : ℂ)

/-- `m[i:i+2, i:i+2] = b` (decomp_schur.py l.144-147 entry by entry,
l.528-529 as a slice). -/
def setBlock (i : ℕ) (b : Mat2) (m : Arr ℂ) : Arr ℂ := fun r c =>
  if r = i ∧ c = i then b 0 0 else
  if r = i + 1 ∧ c = i then b 1 0 else
  if r = i ∧ c = i + 1 then b 0 1 else
  if r = i + 1 ∧ c = i + 1 then b 1 1 else m r c

/-- `m[:i, i:i+2] = np.dot(m[:i, i:i+2], u)` (decomp_schur.py l.149,
l.531, l.533). -/
def mulAbove (i : ℕ) (u : Mat2) (m : Arr ℂ) : Arr ℂ := fun r c =>
  if r < i then
    if c = i then m r i * u 0 0 + m r (i + 1) * u 1 0
    else if c = i + 1 then m r i * u 0 1 + m r (i + 1) * u 1 1
    else m r c
  else m r c

/-- `m[i:i+2, i+2:] = np.dot(u, m[i:i+2, i+2:])` (decomp_schur.py l.150,
l.532, l.534; there `u` is the conjugate transpose of a matrix). -/
def mulRight (i : ℕ) (u : Mat2) (m : Arr ℂ) : Arr ℂ := fun r c =>
  if i + 2 ≤ c then
    if r = i then u 0 0 * m i c + u 0 1 * m (i + 1) c
    else if r = i + 1 then u 1 0 * m i c + u 1 1 * m (i + 1) c
    else m r c
  else m r c

/-- `m[:, i:i+2] = np.dot(src[:, i:i+2], u)` (decomp_schur.py l.152 with
`src = m = q2`; l.537 with `src = q`, `m = q2`; l.539). -/
def setCols (i : ℕ) (u : Mat2) (src m : Arr ℂ) : Arr ℂ := fun r c =>
  if c = i then src r i * u 0 0 + src r (i + 1) * u 1 0
  else if c = i + 1 then src r i * u 0 1 + src r (i + 1) * u 1 1
  else m r c

/-- The matrix `U` of decomp_schur.py l.138-142 for the block `[[a, b], [c, a]]`. -/
noncomputable def rotU (b c : ℝ) : Mat2 :=
  let x : ℂ := Complex.I * (Real.sqrt (-b * c) : ℝ)
  let y : ℂ := c
  let norm : ℂ := (Real.sqrt (-b * c + c * c) : ℝ)
  !![x / norm, -y / norm; y / norm, -x / norm]

/-- The new diagonal block, decomp_schur.py l.144-147. -/
noncomputable def newBlock (a b c : ℝ) : Mat2 :=
  let x : ℂ := Complex.I * (Real.sqrt (-b * c) : ℝ)
  !![a + x, -b - c; 0, a - x]

/-- One turn of the loop in `convert_r2c_schur` (decomp_schur.py l.121-152);
`t` is the real input, `(t2, q2)` the arrays being changed. -/
noncomputable def convStep (t : Arr ℝ) (st : Arr ℂ × Arr ℂ) (i : ℕ) : Arr ℂ × Arr ℂ :=
  let a := t i i
  let b := t i (i + 1)
  let c := t (i + 1) i
  let u := rotU b c
  let t2 := setBlock i (newBlock a b c) st.1
  let t2 := mulAbove i u t2
  let t2 := mulRight i uᴴ t2
  (t2, setCols i u st.2 st.2)

/-- A Schur form `(t, q)`, real or complex (the `dtype` of the arrays); `q`
can be `None`. -/
inductive Form where
  | real (t : Arr ℝ) (q : Option (Arr ℝ))
  | cplx (t : Arr ℂ) (q : Option (Arr ℂ))

/-- The exceptions that can be raised. -/
inductive Err where
  /-- `LinAlgError`, from LAPACK. -/
  | linAlg
  /-- `AttributeError`, from `None.astype`. -/
  | attribute
  /-- `TypeError`, from `math.sqrt` of a complex number. -/
  | type
  /-- `ValueError`, from unpacking a tuple of the wrong length. -/
  | value
  /-- `RecursionError`. -/
  | recursion
  deriving DecidableEq

/-- `convert_r2c_schur(t, q)` (decomp_schur.py l.84-154) for real `t`, `q`.
`None.astype` raises an `AttributeError` (l.119). -/
noncomputable def convertR2C (n : ℕ) (t : Arr ℝ) (q : Option (Arr ℝ)) : Except Err Form :=
  let bp := blockpos n t
  if bp.isEmpty then .ok (.real t q)
  else match q with
    | none => .error .attribute
    | some q =>
      let st := bp.foldl (convStep t) (toC t, toC q)
      .ok (.cplx st.1 (some st.2))

/-! ## Specification -/

/-- The array as a matrix. -/
def mat {K : Type} (n : ℕ) (m : Arr K) : Matrix (Fin n) (Fin n) K :=
  Matrix.of fun r c => m r c

/-- A real Schur form as LAPACK returns it ("Schur canonical form"):
quasi-triangular, with 2x2 blocks that do not overlap, and each of them of the
form `[[a, b], [c, a]]` with `b*c < 0`. -/
structure RealSchur (n : ℕ) (t : Arr ℝ) : Prop where
  lower : ∀ r c, r < n → c + 1 < r → t r c = 0
  apart : ∀ i, i + 2 < n → t (i + 1) i ≠ 0 → t (i + 2) (i + 1) = 0
  same : ∀ i, i + 1 < n → t (i + 1) i ≠ 0 → t (i + 1) (i + 1) = t i i
  neg : ∀ i, i + 1 < n → t (i + 1) i ≠ 0 → t i (i + 1) * t (i + 1) i < 0

/-- Upper triangular. -/
def UpperTri {K : Type} [Zero K] (n : ℕ) (t : Arr K) : Prop :=
  ∀ r c, r < n → c < r → t r c = 0

/-- `w` is the list of eigenvalues that `schur` documents for the real Schur
form `t` (decomp_schur.py l.53-57): the diagonal entry for a 1x1 block, and for
a 2x2 block the two roots of its characteristic polynomial, complex conjugates
of each other, the one with positive imaginary part first. -/
structure EigList (n : ℕ) (t : Arr ℝ) (w : ℕ → ℂ) : Prop where
  single : ∀ k, k < n → (k + 1 < n → t (k + 1) k = 0) →
    (∀ j, j + 1 = k → t k j = 0) → w k = t k k
  root : ∀ i, i + 1 < n → t (i + 1) i ≠ 0 →
    (w i - t i i) * (w i - t (i + 1) (i + 1)) = t i (i + 1) * t (i + 1) i
  pos : ∀ i, i + 1 < n → t (i + 1) i ≠ 0 → 0 < (w i).im
  conj : ∀ i, i + 1 < n → t (i + 1) i ≠ 0 → w (i + 1) = (starRingEnd ℂ) (w i)

end Kwant.Schur
