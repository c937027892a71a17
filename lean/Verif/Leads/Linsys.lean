import Mathlib.Data.Complex.Basic
import Mathlib.Data.Matrix.ColumnRowPartitioned
import Mathlib.LinearAlgebra.Matrix.ConjTranspose
import Mathlib.LinearAlgebra.Matrix.NonsingularInverse
import Mathlib.LinearAlgebra.UnitaryGroup
import Mathlib.Analysis.SpecialFunctions.Pow.Real
import Mathlib.Analysis.Complex.Basic

/-!
Model of kwant/physics/leads.py, `setup_linsys` (l.204-391).

Simplifications: exact complex arithmetic; `scipy.linalg.svd`, `lu_factor`/`lu_solve`, LAPACK's condition number estimate `gecon` and `inv` are arbitrary
functions with the contract `Numerics.Ok`; the machine precision is a positive number and does not depend on the type of the arrays.  The casts to real arrays
(l.250-252) only matter for the choice of the algorithm, as the flag `real` below.
-/

set_option linter.unusedSectionVars false

namespace Kwant.Leads
open Matrix Complex

variable {n : ℕ}

/-- The result of `la.svd`. -/
structure Svd (n : ℕ) where
  u : Matrix (Fin n) (Fin n) ℂ
  s : Fin n → ℝ
  vh : Matrix (Fin n) (Fin n) ℂ

/-- The numerical routines that are not part of kwant, and `eps` (l.254). -/
structure Numerics (n : ℕ) where
  svd : Matrix (Fin n) (Fin n) ℂ → Svd n
  rcond : ∀ {k : Type} [Fintype k] [DecidableEq k], Matrix k k ℂ → ℝ
  luSolve : ∀ {k l : Type} [Fintype k] [DecidableEq k], Matrix k k ℂ → Matrix k l ℂ → Matrix k l ℂ
  inv : Matrix (Fin n) (Fin n) ℂ → Matrix (Fin n) (Fin n) ℂ
  eps : ℝ
  tol : ℝ

/-- Contract of `la.svd`: `a = u s vh` with unitary `u`, `vh` and the singular values in descending order. -/
structure SvdOk (a : Matrix (Fin n) (Fin n) ℂ) (d : Svd n) : Prop where
  fact : a = d.u * diagonal (fun i => (d.s i : ℂ)) * d.vh
  uu : d.uᴴ * d.u = 1
  vv : d.vh * d.vhᴴ = 1
  nonneg : ∀ i, 0 ≤ d.s i
  desc : Antitone d.s

/-- Contract of the numerical routines, for the matrices that occur for the hopping `hop`. -/
structure Numerics.Ok (e : Numerics n) (hop : Matrix (Fin n) (Fin n) ℂ) : Prop where
  svd : SvdOk hop (e.svd hop)
  rcond : ∀ {k : Type} [Fintype k] [DecidableEq k] (m : Matrix k k ℂ), 0 < e.rcond m → IsUnit m.det
  luSolve : ∀ {k l : Type} [Fintype k] [DecidableEq k] (m : Matrix k k ℂ) (b : Matrix k l ℂ), IsUnit m.det → e.luSolve m b = m⁻¹ * b
  inv : ∀ m, IsUnit m.det → e.inv m = m⁻¹
  eps : 0 < e.eps
  tol : 0 < e.tol

inductive LErr | valueError | runtimeError | assertionError
  deriving DecidableEq

/-- `Linsys` (l.87): `eigenproblem` is the pair `a`, `b`.  The matrices of the eigenproblem have `2 * r` rows; a vector of this length is split in its first
and its second half. -/
structure Linsys (n : ℕ) where
  r : ℕ
  a : Matrix (Fin r ⊕ Fin r) (Fin r ⊕ Fin r) ℂ
  b : Option (Matrix (Fin r ⊕ Fin r) (Fin r ⊕ Fin r) ℂ)
  v : Matrix (Fin n) (Fin r) ℂ
  extract : {k : ℕ} → Matrix (Fin r ⊕ Fin r) (Fin k) ℂ → (Fin k → ℂ) → Matrix (Fin n) (Fin k) ℂ

/-- `npl.norm(h_hop)`: the Frobenius norm (l.268) -/
noncomputable def frob (a : Matrix (Fin n) (Fin n) ℂ) : ℝ := Real.sqrt (∑ i, ∑ j, ‖a i j‖ ^ 2)

/-- The branch for a well-conditioned hopping (l.264-283). -/
noncomputable def linsysReg (e : Numerics n) (h hop : Matrix (Fin n) (Fin n) ℂ) : Linsys n :=
  let hopSqrt : ℝ := Real.sqrt (frob hop)
  let A : Matrix (Fin n) (Fin n) ℂ := ((hopSqrt : ℂ)⁻¹) • hop
  let B : ℂ := hopSqrt
  let BHinv : ℂ := 1 / B
  let mAinv := -e.inv A
  { r := n
    a := fromBlocks (BHinv • (mAinv * h)) (B • mAinv) (BHinv • Aᴴ) 0
    b := none
    v := (hopSqrt : ℂ) • (1 : Matrix (Fin n) (Fin n) ℂ)
    extract := fun psi _ => BHinv • psi.toRows₁ }

/-- `n_nonsing` (l.261) -/
noncomputable def nNonsing (e : Numerics n) (s : Fin n → ℝ) : ℕ :=
  (Finset.univ.filter fun i : Fin n => s i > e.eps * s ⟨0, i.pos⟩).card

theorem nNonsing_le (e : Numerics n) (s : Fin n → ℝ) : nNonsing e s ≤ n := by
  simpa [nNonsing] using Finset.card_le_univ (Finset.univ.filter fun i : Fin n => s i > e.eps * s ⟨0, i.pos⟩)

/-- `u = u[:, :n_nonsing] * np.sqrt(s)` (l.292-294) -/
noncomputable def cutU (d : Svd n) {r : ℕ} (hr : r ≤ n) : Matrix (Fin n) (Fin r) ℂ :=
  of fun i j => d.u i (Fin.castLE hr j) * (Real.sqrt (d.s (Fin.castLE hr j)) : ℂ)

/-- `v = vh[:n_nonsing].T.conj() * np.sqrt(s)` (l.295) -/
noncomputable def cutV (d : Svd n) {r : ℕ} (hr : r ≤ n) : Matrix (Fin n) (Fin r) ℂ :=
  of fun i j => (starRingEnd ℂ) (d.vh (Fin.castLE hr j) i) * (Real.sqrt (d.s (Fin.castLE hr j)) : ℂ)

/-- The stabilized on-site matrix `h` (l.325) -/
noncomputable def stabH (h : Matrix (Fin n) (Fin n) ℂ) {r : ℕ} (u v : Matrix (Fin n) (Fin r) ℂ) : Matrix (Fin n) (Fin n) ℂ :=
  h + I • (u * uᴴ + v * vᴴ)

/-- `extract_wf` (l.339-344); `need` is `need_to_stabilize` and `hs` is the matrix that `sol` factorizes. -/
noncomputable def extractWf (e : Numerics n) (hs : Matrix (Fin n) (Fin n) ℂ) {r : ℕ} (u v : Matrix (Fin n) (Fin r) ℂ) (need : Bool) {k : ℕ}
    (psi : Matrix (Fin r ⊕ Fin r) (Fin k) ℂ) (lmbdainv : Fin k → ℂ) : Matrix (Fin n) (Fin k) ℂ :=
  let wf := -u * (psi.toRows₁ * diagonal lmbdainv) - v * psi.toRows₂
  let wf := if need then wf + I • (v * psi.toRows₁ + u * (psi.toRows₂ * diagonal lmbdainv)) else wf
  e.luSolve hs wf

/-- The matrix `A` of the pencil (l.348-361) -/
noncomputable def pencilA (e : Numerics n) (hs : Matrix (Fin n) (Fin n) ℂ) {r : ℕ} (u v : Matrix (Fin n) (Fin r) ℂ) (need : Bool) :
    Matrix (Fin r ⊕ Fin r) (Fin r ⊕ Fin r) ℂ :=
  let temp := e.luSolve hs v
  fromBlocks (if need then (-I) • (uᴴ * temp) else 0) (uᴴ * temp)
    (if need then 1 - I • (vᴴ * temp) else 1) (vᴴ * temp)

/-- The matrix `B` of the pencil (l.363-373) -/
noncomputable def pencilB (e : Numerics n) (hs : Matrix (Fin n) (Fin n) ℂ) {r : ℕ} (u v : Matrix (Fin n) (Fin r) ℂ) (need : Bool) :
    Matrix (Fin r ⊕ Fin r) (Fin r ⊕ Fin r) ℂ :=
  let temp := e.luSolve hs u
  fromBlocks (-(uᴴ * temp)) (if need then -1 + I • (uᴴ * temp) else -1)
    (-(vᴴ * temp)) (if need then I • (vᴴ * temp) else 0)

/-- The last part of the other branch (l.335-390), once `h` and `need_to_stabilize` are known; `red`: reduce to a regular problem (l.387-390). -/
noncomputable def linsysCore (e : Numerics n) (hs : Matrix (Fin n) (Fin n) ℂ) {r : ℕ} (u v : Matrix (Fin n) (Fin r) ℂ) (need red : Bool) : Linsys n :=
  let A := pencilA e hs u v need
  let B := pencilB e hs u v need
  { r := r
    a := if red then e.luSolve B A else A
    b := if red then none else some B
    v := v
    extract := fun psi l => extractWf e hs u v need psi l }

open Classical in
/-- `stabilization[1]` after l.382-385; `stab1` is the value given by the user. -/
noncomputable def reduce (e : Numerics n) (hs : Matrix (Fin n) (Fin n) ℂ) {r : ℕ} (u v : Matrix (Fin n) (Fin r) ℂ) (need stab1 : Bool) : Bool :=
  if stab1 then true else decide (e.rcond (pencilB e hs u v need) > e.eps * e.tol)

/-- l.335-390 -/
noncomputable def linsysSvd (e : Numerics n) (hs : Matrix (Fin n) (Fin n) ℂ) {r : ℕ} (u v : Matrix (Fin n) (Fin r) ℂ) (need stab1 : Bool) : Linsys n :=
  linsysCore e hs u v need (reduce e hs u v need stab1)

open Classical in
/-- `setup_linsys` (l.204-391).  `stab` is the argument `stabilization`; the default of its elements (l.286-287) is `[None, False]`. -/
noncomputable def setupLinsys (e : Numerics n) (h hop : Matrix (Fin n) (Fin n) ℂ) (stab : Option (Option Bool × Bool)) : Except LErr (Linsys n) :=
  if hop = 0 then .error .valueError
  else
    let real : Bool := decide ((∀ i j, (hop i j).im = 0) ∧ ∀ i j, (h i j).im = 0)
    let d := e.svd hop
    if nNonsing e d.s = n ∧ stab = none then .ok (linsysReg e h hop)
    else
      let st := stab.getD (none, false)
      let u := cutU d (nNonsing_le e d.s)
      let v := cutV d (nNonsing_le e d.s)
      let addImaginary : Bool := st.1.getD (!real)
      if addImaginary = false ∧ ¬e.rcond h < e.eps then .ok (linsysSvd e h u v false st.2)
      else if e.rcond (stabH h u v) < e.eps then .error .runtimeError
      else .ok (linsysSvd e (stabH h u v) u v true st.2)

end Kwant.Leads
