import Verif.Continuum.Landau
import Verif.Continuum.Spec

/-!
The specification of the Landau level basis, independent of the code.

The states of a harmonic oscillator are sequences `φ : ℕ → ℂ` (the coefficient of every Landau level), with the usual ladder operators.  In a magnetic field `B` the two momenta in the plane are
`sqrt(|B|/2) (a† + a)` and `± i sqrt(|B|/2) (a - a†)`, the sign being that of `B`, so that `[k_0, k_1] = -i B` for every `B`.
-/

set_option linter.unusedSectionVars false

namespace Kwant.Continuum

/-- `a |n⟩ = sqrt(n) |n-1⟩`. -/
noncomputable def lowerOp (φ : ℕ → ℂ) : ℕ → ℂ := fun n => (√((n : ℝ) + 1) : ℝ) * φ (n + 1)

/-- `a† |n⟩ = sqrt(n+1) |n+1⟩`. -/
noncomputable def raiseOp (φ : ℕ → ℂ) : ℕ → ℂ
  | 0 => 0
  | n + 1 => (√((n : ℝ) + 1) : ℝ) * φ n

/-- The momenta in the plane, for a field of either sign. -/
noncomputable def kOp (B : ℝ) : KM → (ℕ → ℂ) → ℕ → ℂ
  | .k0, φ => fun n => (√(|B| / 2) : ℝ) * (raiseOp φ n + lowerOp φ n)
  | .k1, φ => fun n => (if B < 0 then -1 else 1) * (Complex.I * (√(|B| / 2) : ℝ) * (lowerOp φ n - raiseOp φ n))

/-- A product of momenta. -/
noncomputable def kwordOp (B : ℝ) (w : List KM) (φ : ℕ → ℂ) : ℕ → ℂ := w.foldr (kOp B) φ

/-- A word of ladder operators. -/
noncomputable def ladOp : Ladder → (ℕ → ℂ) → ℕ → ℂ
  | .raise => raiseOp
  | .lower => lowerOp

/-- A product of ladder operators. -/
noncomputable def ladderOp (w : List Ladder) (φ : ℕ → ℂ) : ℕ → ℂ := w.foldr ladOp φ

/-- A summand of the Hamiltonian on a state that has, at every position, a component for every Landau level: factors from right to left, momenta of the plane act on the
levels, the third momentum is a central difference in the normal direction `ax` with step `s`, functions of the position multiply. -/
noncomputable def landauOp (kpar : Axis → ℂ) (ax : Axis) (B : ℝ) (s : Pos) : LTerm → (Pos → ℕ → ℂ) → Pos → ℕ → ℂ
  | [], Φ => Φ
  | .k q e :: t, Φ => fun x => (kOp B q)^[e] (landauOp kpar ax B s t Φ x)
  | .other f :: t, Φ => fun x n => discOp kpar [ax] s [f] (fun y => landauOp kpar ax B s t Φ y n) x

/-- The formal adjoint of a summand. -/
noncomputable def adjL (t : LTerm) : LTerm :=
  t.reverse.map fun f => match f with
    | .k q e => .k q e
    | .other (.mom c e) => .other (.mom c e)
    | .other (.fn g) => .other (.fn fun x => star (g x))

/-- Two summands are the same operator: the same momenta of the plane in the same order, and the same operator in the normal direction. -/
def SameL (t t' : LTerm) : Prop := kword t = kword t' ∧ SameOp (rest t) (rest t')

/-- A Hamiltonian is formally Hermitian. -/
def LandauHermitian {m : ℕ} (ham : Fin m → Fin m → List LTerm) : Prop :=
  ∀ i j, ∃ l : List LTerm, (ham j i).Perm l ∧ List.Forall₂ SameL l ((ham i j).map adjL)

/-- The transpose in the normal direction: the factors in the opposite order, `k_c` (that is `-i d/dc`) becomes `-k_c`. -/
noncomputable def transTerm (c : Axis) (t : Term) : Term := .fn (fun _ => (-1) ^ degree c t) :: t.reverse

/-- A summand with its part in the normal direction transposed. -/
noncomputable def transL (c : Axis) (t : LTerm) : LTerm := (kword t).map (fun q => .k q 1) ++ (transTerm c (rest t)).map .other

end Kwant.Continuum
