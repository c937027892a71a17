import Verif.Leads.ProperMain
import Mathlib.LinearAlgebra.Matrix.Rank

/-!
Model of kwant/physics/leads.py, `unified_eigenproblem` (l.394-464) and `compute_block_modes` (l.872-909).

Simplifications: the routines of kwant.linalg that wrap LAPACK (`schur`, `gen_schur`, `evecs_from_schur`, `order_schur` and their generalized versions) are arbitrary
functions with the contract `EigNum.Ok`; the matrices are treated as complex ones (a real Schur form with blocks of size two is not distinguished from a complex one).
-/

set_option linter.unusedSectionVars false

namespace Kwant.Leads
open Matrix Complex

variable {n r : ℕ}

/-- What `kla.schur(a)` or `kla.gen_schur(a, b)` compute, together with the functions `vec_gen` and `ord_schur` that use it.  The arrays `select` are boolean; `vec_gen`
gets the list of the selected positions. -/
structure Eig (r : ℕ) where
  alpha : Fin (r + r) → ℂ
  beta : Fin (r + r) → ℂ
  vecGen : (l : List (Fin (r + r))) → Matrix (Fin r ⊕ Fin r) (Fin l.length) ℂ
  ordSchur : (Fin (r + r) → Bool) → Matrix (Fin r ⊕ Fin r) (Fin (r + r)) ℂ

/-- The numerical routines, and `eps` (l.430, 446). -/
structure EigNum where
  schur : {r : ℕ} → Matrix (Fin r ⊕ Fin r) (Fin r ⊕ Fin r) ℂ → Eig r
  genSchur : {r : ℕ} → Matrix (Fin r ⊕ Fin r) (Fin r ⊕ Fin r) ℂ → Matrix (Fin r ⊕ Fin r) (Fin r ⊕ Fin r) ℂ → Eig r
  eps : ℝ

/-- The result of `unified_eigenproblem`. -/
structure Unified (r : ℕ) where
  ev : Fin (r + r) → ℂ
  evanselect : Fin (r + r) → Bool
  propselect : Fin (r + r) → Bool
  vecGen : (l : List (Fin (r + r))) → Matrix (Fin r ⊕ Fin r) (Fin l.length) ℂ
  ordSchur : (Fin (r + r) → Bool) → Matrix (Fin r ⊕ Fin r) (Fin (r + r)) ℂ

open Classical in
/-- `unified_eigenproblem` (l.394-464).  In the regular problem `alpha` are the eigenvalues and `beta` is not used. -/
noncomputable def unifiedEigenproblem (e : EigNum) (a : Matrix (Fin r ⊕ Fin r) (Fin r ⊕ Fin r) ℂ) (b : Option (Matrix (Fin r ⊕ Fin r) (Fin r ⊕ Fin r) ℂ)) : Unified r :=
  match b with
  | none =>
    let s := e.schur a
    ⟨s.alpha, fun i => decide (‖s.alpha i‖ > 1 + e.eps), fun i => decide (|‖s.alpha i‖ - 1| < e.eps), s.vecGen, s.ordSchur⟩
  | some b =>
    let s := e.genSchur a b
    ⟨fun i => s.alpha i / s.beta i, fun i => decide (‖s.alpha i‖ > (1 + e.eps) * ‖s.beta i‖),
      fun i => decide (|‖s.alpha i‖ - ‖s.beta i‖| < e.eps * ‖s.beta i‖), s.vecGen, s.ordSchur⟩

/-- The positions selected by a boolean array. -/
def selected (sel : Fin (r + r) → Bool) : List (Fin (r + r)) := (List.finRange (r + r)).filter sel

/-- The result of `compute_block_modes`, for a block of `n` orbitals: `r` is the number of columns of `v`, `N` the number of propagating modes, `q` the number of
evanescent ones. -/
structure BlockModes (n : ℕ) where
  r : ℕ
  N : ℕ
  q : ℕ
  waveFunctions : Matrix (Fin n) (Fin N) ℂ
  momenta : Fin N → ℝ
  velocities : Fin N → ℝ
  vecs : Matrix (Fin r) (Fin N ⊕ Fin q) ℂ
  vecslmbdainv : Matrix (Fin r) (Fin N ⊕ Fin q) ℂ
  v : Matrix (Fin n) (Fin r) ℂ

/-- All numerical routines. -/
structure BlockNum (n : ℕ) where
  lin : Numerics n
  eig : EigNum
  mode : ModeNum n

theorem nevan_le (r k : ℕ) : r - k ≤ r + r := by omega

/-- `compute_block_modes` after the call of `unified_eigenproblem` (l.880-909); `junk` is uninitialised memory, see `makeProperModes`. -/
noncomputable def blockOf (e : BlockNum n) (sy : Symm n) (junk : (N : ℕ) → Fin N → ℝ) (L : Linsys n) (p : Unified L.r) : Except LErr (BlockModes n) :=
  let prop := selected p.propselect
  let nrightmovers := prop.length / 2
  let nevan := L.r - nrightmovers
  let evanVecs := (p.ordSchur p.evanselect).submatrix id (Fin.castLE (nevan_le L.r nrightmovers))
  match makeProperModes e.mode sy (junk prop.length) (p.ev ∘ prop.get) (p.vecGen prop) L.extract with
  | .error x => .error x
  | .ok o => .ok
    { r := L.r, N := prop.length, q := nevan, waveFunctions := o.waveFunctions, momenta := o.momenta, velocities := o.velocities,
      vecs := fromCols o.psi.toRows₂ evanVecs.toRows₂, vecslmbdainv := fromCols o.psi.toRows₁ evanVecs.toRows₁, v := L.v }

/-- `compute_block_modes` (l.872-909) -/
noncomputable def computeBlockModes (e : BlockNum n) (sy : Symm n) (junk : (N : ℕ) → Fin N → ℝ) (h hop : Matrix (Fin n) (Fin n) ℂ) (stab : Option (Option Bool × Bool)) :
    Except LErr (BlockModes n) :=
  match setupLinsys e.lin h hop stab with
  | .error x => .error x
  | .ok L => blockOf e sy junk L (unifiedEigenproblem e.eig L.a L.b)

/-! ### Contracts -/

/-- Contract of `order_schur` and `order_gen_schur`: `z` is the unitary matrix of an ordered (generalized) Schur decomposition `a z = q s`, `b z = q t` with upper
triangular `s`, `t`, whose diagonals are the numbers `alpha`, `beta` in an order in which the selected ones come first.  (The rows of `s`, `t` can be scaled such that
the numbers are those of the unordered decomposition, because `q` is not required to be unitary.) -/
def OrdSchurOk (a b : Matrix (Fin r ⊕ Fin r) (Fin r ⊕ Fin r) ℂ) (alpha beta : Fin (r + r) → ℂ) (sel : Fin (r + r) → Bool)
    (z : Matrix (Fin r ⊕ Fin r) (Fin (r + r)) ℂ) : Prop :=
  zᴴ * z = 1 ∧ ∃ (q : Matrix (Fin r ⊕ Fin r) (Fin (r + r)) ℂ) (s t : Matrix (Fin (r + r)) (Fin (r + r)) ℂ) (σ : Equiv.Perm (Fin (r + r))),
    a * z = q * s ∧ b * z = q * t ∧ (∀ i j, j < i → s i j = 0) ∧ (∀ i j, j < i → t i j = 0) ∧ (∀ i, s i i = alpha (σ i)) ∧ (∀ i, t i i = beta (σ i)) ∧
    ∀ i, sel (σ i) = true ↔ i.val < (selected sel).length

/-- The eigenvalue `μ` of the pencil `a - μ b` is not defective. -/
def Semisimple (a b : Matrix (Fin r ⊕ Fin r) (Fin r ⊕ Fin r) ℂ) (μ : ℂ) : Prop :=
  ∀ x y, a *ᵥ x = μ • (b *ᵥ x) → a *ᵥ y = μ • (b *ᵥ y) + b *ᵥ x → b *ᵥ x = 0

/-- Contract of `evecs_from_schur` and `evecs_from_gen_schur`: the columns are eigenvectors, and those of a non-defective eigenvalue form a basis of the eigenspace, if
all its positions are selected. -/
structure EvecsOk (a b : Matrix (Fin r ⊕ Fin r) (Fin r ⊕ Fin r) ℂ) (alpha beta : Fin (r + r) → ℂ) (l : List (Fin (r + r)))
    (psi : Matrix (Fin r ⊕ Fin r) (Fin l.length) ℂ) : Prop where
  solution : ∀ i, beta (l.get i) • (a *ᵥ psi.col i) = alpha (l.get i) • (b *ᵥ psi.col i)
  indep : ∀ (μ : ℂ), Semisimple a b μ → ∀ c : Fin l.length → ℂ, (∀ i, alpha (l.get i) ≠ μ * beta (l.get i) → c i = 0) → psi *ᵥ c = 0 → c = 0
  complete : ∀ (μ : ℂ), Semisimple a b μ → (∀ i, alpha i = μ * beta i → i ∈ l) → ∀ x, a *ᵥ x = μ • (b *ᵥ x) →
    ∃ c : Fin l.length → ℂ, (∀ i, alpha (l.get i) ≠ μ * beta (l.get i) → c i = 0) ∧ x = psi *ᵥ c

/-- A pencil is regular if its determinant does not vanish identically. -/
def RegularPencil (a b : Matrix (Fin r ⊕ Fin r) (Fin r ⊕ Fin r) ℂ) : Prop := ∃ μ : ℂ, ∀ x, a *ᵥ x = μ • (b *ᵥ x) → x = 0

/-- Contract of a Schur decomposition and what is derived from it, for a regular pencil. -/
structure EigOk (a b : Matrix (Fin r ⊕ Fin r) (Fin r ⊕ Fin r) ℂ) (s : Eig r) : Prop where
  ordSchur : RegularPencil a b → ∀ sel, OrdSchurOk a b s.alpha s.beta sel (s.ordSchur sel)
  evecs : RegularPencil a b → ∀ l : List (Fin (r + r)), l.Nodup → EvecsOk a b s.alpha s.beta l (s.vecGen l)

/-- Contract of the eigenvalue routines. -/
structure EigNum.Ok (e : EigNum) : Prop where
  schur : ∀ {r : ℕ} (a : Matrix (Fin r ⊕ Fin r) (Fin r ⊕ Fin r) ℂ), EigOk a 1 (e.schur a) ∧ (e.schur a).beta = 1
  genSchur : ∀ {r : ℕ} (a b : Matrix (Fin r ⊕ Fin r) (Fin r ⊕ Fin r) ℂ), EigOk a b (e.genSchur a b)
  eps : 0 < e.eps

structure BlockNum.Ok (e : BlockNum n) (hop : Matrix (Fin n) (Fin n) ℂ) : Prop where
  lin : e.lin.Ok hop
  eig : e.eig.Ok
  mode : e.mode.Ok

/-- The generalized eigenvalues computed for a pencil. -/
noncomputable def EigNum.eig (e : EigNum) (a : Matrix (Fin r ⊕ Fin r) (Fin r ⊕ Fin r) ℂ) (b : Option (Matrix (Fin r ⊕ Fin r) (Fin r ⊕ Fin r) ℂ)) : Eig r :=
  match b with
  | none => e.schur a
  | some b => e.genSchur a b

/-! ### Specification -/

/-- There is no flat band at this energy. -/
def NoFlatBand (h hop : Matrix (Fin n) (Fin n) ℂ) : Prop := ∃ μ : ℂ, μ ≠ 0 ∧ ∀ ψ, IsBloch h hop μ ψ → ψ = 0

/-- The energy is not at the edge of a band: the velocity operator is not degenerate on the propagating solutions of any momentum. -/
def NoBandEdge (h hop : Matrix (Fin n) (Fin n) ℂ) : Prop := ∀ (k : ℝ) (ψ : Fin n → ℂ), IsBloch h hop (cexp (-(I * k))) ψ →
  (∀ φ, IsBloch h hop (cexp (-(I * k))) φ → star φ ⬝ᵥ (velK hop k *ᵥ ψ) = 0) → ψ = 0

/-- No eigenvalue is so close to the unit circle that it is taken for a propagating one although it is not. -/
def CircleGap (eps : ℝ) (s : Eig r) : Prop := ∀ i, ‖s.alpha i‖ = ‖s.beta i‖ ∨ ‖s.alpha i‖ > (1 + eps) * ‖s.beta i‖ ∨ ‖s.alpha i‖ ≤ (1 - eps) * ‖s.beta i‖

/-- The tolerances are small compared to the distances between different eigenvalues, and between the unit circle and the eigenvalues that are not on it. -/
structure WellSeparated (e : BlockNum n) (L : Linsys n) : Prop where
  gap : CircleGap e.eig.eps (e.eig.eig L.a L.b)
  sep : Separated e.mode ((unifiedEigenproblem e.eig L.a L.b).ev ∘ (selected (unifiedEigenproblem e.eig L.a L.b).propselect).get)

end Kwant.Leads
