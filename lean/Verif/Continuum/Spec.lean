import Verif.Continuum.Model

/-!
The specification of discretization, independent of the code.

A wave function is a function of the position.  On a grid with spacings `a` the momentum operator `k_c = -i d/dc` is the central difference
`ψ ↦ -i (ψ(x + a_c e_c) - ψ(x - a_c e_c)) / (2 a_c)`; a product of factors is the composition of operators; functions of the position multiply.
-/

set_option linter.unusedSectionVars false

namespace Kwant.Continuum

/-- The central difference quotient for `k_c = -i d/dc` with step `s`. -/
noncomputable def kDisc (c : Axis) (s : ℝ) (ψ : Pos → ℂ) : Pos → ℂ :=
  fun x => -Complex.I * ((ψ (x + Pi.single c s) - ψ (x - Pi.single c s)) / (2 * s))

/-- A summand as an operator: its leftmost factor is applied last; momenta of the discretized coordinates are central differences with the steps `s`. -/
noncomputable def discOp (kpar : Axis → ℂ) (coords : List Axis) (s : Pos) : Term → (Pos → ℂ) → Pos → ℂ
  | [], ψ => ψ
  | .mom c e :: t, ψ => if c ∈ coords then (kDisc c (s c))^[e.toNat] (discOp kpar coords s t ψ) else fun x => kpar c ^ e * discOp kpar coords s t ψ x
  | .fn g :: t, ψ => fun x => g x * discOp kpar coords s t ψ x

/-- How many times `k_c` occurs in the summand. -/
def degree (c : Axis) : Term → ℕ
  | [] => 0
  | .mom c' e :: t => (if c' = c then e.toNat else 0) + degree c t
  | .fn _ :: t => degree c t

/-- The step of the central differences for a summand on a grid with spacings `a`: half the spacing if `k_c` occurs an even number of times. -/
noncomputable def stepOf (t : Term) (a : Pos) : Pos := fun c => if Even (degree c t) then a c / 2 else a c

/-- The grid point that is `k` away from `x` (`k` is a tuple of offsets, one for each of `coords`). -/
noncomputable def gridAt (coords : List Axis) (k : List ℤ) (a x : Pos) : Pos :=
  x + ((coords.zip k).map fun p => Pi.single p.1 ((p.2 : ℝ) * a p.1)).sum

/-- The formal adjoint of a summand: factors in the opposite order, functions complex conjugated. -/
noncomputable def adjTerm (t : Term) : Term :=
  t.reverse.map fun f => match f with
    | .mom c e => .mom c e
    | .fn g => .fn fun x => star (g x)

/-- Negation of a tuple of offsets. -/
def negKey (k : List ℤ) : List ℤ := k.map fun i => -i

end Kwant.Continuum

namespace Kwant.Continuum

/-- The first entry of a tuple that is not zero is positive. -/
def FirstPos (k : List ℤ) : Prop := ∃ (n : ℕ) (z : ℤ) (r : List ℤ), k = List.replicate n 0 ++ z :: r ∧ 0 < z

/-- Two summands are the same operator because neighbouring momenta commute, neighbouring functions commute and may be multiplied, powers of the same momentum may be
joined, constants commute with momenta, and the factor 1 may be dropped. -/
inductive SameOp : Term → Term → Prop
  | refl (t) : SameOp t t
  | symm {t t'} : SameOp t t' → SameOp t' t
  | trans {t t' t''} : SameOp t t' → SameOp t' t'' → SameOp t t''
  | cons (f) {t t'} : SameOp t t' → SameOp (f :: t) (f :: t')
  | momSwap (c e c' e' t) : SameOp (.mom c e :: .mom c' e' :: t) (.mom c' e' :: .mom c e :: t)
  | momMul (c) (n n' : ℕ) (t) : SameOp (.mom c n :: .mom c n' :: t) (.mom c (n + n') :: t)
  | fnSwap (g g' t) : SameOp (.fn g :: .fn g' :: t) (.fn g' :: .fn g :: t)
  | fnMul (g g' t) : SameOp (.fn g :: .fn g' :: t) (.fn (fun x => g x * g' x) :: t)
  | fnOne (t) : SameOp (.fn (fun _ => 1) :: t) t
  | constSwap (a : ℂ) (c e t) : SameOp (.fn (fun _ => a) :: .mom c e :: t) (.mom c e :: .fn (fun _ => a) :: t)

/-- A Hamiltonian is formally Hermitian: the summands of the entry (j, i) are the formal adjoints of the summands of the entry (i, j). -/
def FormallyHermitian {m : ℕ} (ham : Fin m → Fin m → Expr) : Prop :=
  ∀ i j, ∃ l : Expr, (ham j i).Perm l ∧ List.Forall₂ SameOp l ((ham i j).map adjTerm)

end Kwant.Continuum
