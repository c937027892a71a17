import Mathlib.Data.Complex.Basic
import Mathlib.Data.List.Lex
import Mathlib.Data.Matrix.Basic

/-!
Model of kwant/continuum/discretizer.py: `_differentiate`, `_discretize_summand`, `_discretize_expression`, `discretize_symbolic`,
and of `gcd` in kwant/continuum/_common.py.

Simplifications
* A sympy expression that has been expanded is the list of its summands, and a summand the ordered list of its factors; parsing and sympy's `expand` are not
  modelled.  A factor is an integer power of one of `k_x`, `k_y`, `k_z` or anything else, and "anything else" is the function of the position it evaluates to
  (once the values of the parameters are fixed).  `k_c` for a coordinate that is not discretized is a parameter, its value is `kpar c`.
* The expression that `_discretize_summand` returns is expanded by `_extract_hoppings`, it is modelled by the list of the summands of its expansion: the offset in the
  argument of the wave function, and the coefficient, a function of the grid spacings and of the position.  Equal summands are not merged before their coefficients
  are added, and summands never cancel (within one summand of the Hamiltonian all the contributions to one offset have the same sign).
* Coordinates are 0, 1, 2 for x, y, z.  Entries of matrices are exact complex numbers.
* `dict`s are lists of pairs in the order of insertion.
-/

set_option linter.unusedSectionVars false

namespace Kwant.Continuum

/-- One of the coordinates x, y, z. -/
abbrev Axis := Fin 3

/-- A position, and also the grid spacings `a_x, a_y, a_z`. -/
abbrev Pos := Axis → ℝ

/-- The coefficient of a hopping: a function of the grid spacings and of the position. -/
abbrev Coeff := Pos → Pos → ℂ

/-- A factor of a summand: `k_c ** e`, or something that only depends on the position. -/
inductive Factor where
  | mom (c : Axis) (e : ℤ)
  | fn (g : Pos → ℂ)

/-- A summand: the ordered product of its factors. -/
abbrev Term := List Factor

/-- An expanded expression: the sum of its summands. -/
abbrev Expr := List Term

/-- A summand of an expansion: `coefficient * wf(x + o_x a_x, y + o_y a_y, z + o_z a_z)`. -/
abbrev Hop := (Axis → ℤ) × Coeff

/-! ### `_differentiate`, `_discretize_summand` -/

/-- `coordinate + s * h` substituted for `coordinate` in a position (discretizer.py l.388-389). -/
noncomputable def moved (c : Axis) (s : ℤ) (h x : Pos) : Pos := fun i => if i = c then x i + s * h i else x i

/-- `expression.subs(coordinate, coordinate + s * h)` (discretizer.py l.388-389), in the coefficient and in the argument of the wave function. -/
noncomputable def substShift (c : Axis) (s : ℤ) (e : Hop) : Hop :=
  (fun i => if i = c then e.1 i + s else e.1 i, fun h x => e.2 h (moved c s h x))

/-- `factor * result`, expanded. -/
noncomputable def mulBy (g : Coeff) (l : List Hop) : List Hop := l.map fun e => (e.1, fun h x => g h x * e.2 h x)

/-- `_differentiate` (discretizer.py l.369-391): `(expr1 - expr2) / (2 * h)`, expanded. -/
noncomputable def differentiate (c : Axis) (l : List Hop) : List Hop :=
  mulBy (fun h _ => 1 / (2 * h c)) (l.map (substShift c 1) ++ mulBy (fun _ _ => -1) (l.map (substShift c (-1))))

/-- The body of the loop in `_discretize_summand` (discretizer.py l.411-419).  `range(exponent)` is empty for a negative exponent. -/
noncomputable def applyFactor (kpar : Axis → ℂ) (coords : List Axis) (f : Factor) (result : List Hop) : List Hop :=
  match f with
  | .mom c e => if c ∈ coords then (fun l => mulBy (fun _ _ => -Complex.I) (differentiate c l))^[e.toNat] result
      else mulBy (fun _ _ => kpar c ^ e) result
  | .fn g => mulBy (fun _ x => g x) result

/-- `_discretize_summand` (discretizer.py l.394-421) of `summand * wf`: the factors are applied from right to left, the first one to be applied is `wf`. -/
noncomputable def discretizeSummand (kpar : Axis → ℂ) (coords : List Axis) (t : Term) : List Hop :=
  t.foldr (applyFactor kpar coords) [(fun _ => 0, fun _ _ => 1)]

/-! ### `gcd` -/

/-- `while a: a, b = b % a, a` (continuum/_common.py l.302-303), the final `b`.  `%` is the floored one. -/
def euclid (a b : ℤ) : ℤ :=
  if a = 0 then b else euclid (b.fmod a) a
termination_by a.natAbs
decreasing_by
  rename_i h
  rcases lt_or_gt_of_ne h with h | h
  · have h2 : b.fmod a = - ((-b).fmod (-a)) := by rw [Int.neg_fmod_neg]; ring
    have h3 : (-b).fmod (-a) = (-b) % (-a) := Int.fmod_eq_emod_of_nonneg _ (by omega)
    have h4 := Int.emod_nonneg (-b) (show -a ≠ 0 by omega)
    have h5 := Int.emod_lt_of_pos (-b) (show 0 < -a by omega)
    omega
  · have h3 : b.fmod a = b % a := Int.fmod_eq_emod_of_nonneg _ (by omega)
    have h4 := Int.emod_nonneg b h.ne'
    have h5 := Int.emod_lt_of_pos b h
    omega

/-- The loop of `gcd` (continuum/_common.py l.297-307) on the reversed list `L`. -/
def gcdRev : List ℤ → ℤ
  | [] => 0
  | [b] => |b|
  | b :: a :: rest => gcdRev (euclid a b :: rest)
termination_by l => l.length

/-- `gcd` (continuum/_common.py l.291-307); a single argument is returned as it is.  (No argument would be a NameError, it does not occur.) -/
def pyGcd : List ℤ → ℤ
  | [a] => a
  | l => gcdRev l.reverse

/-! ### `_discretize_expression` -/

/-- `output[key] += value` for a dict with default value zero. -/
def addTo {K V : Type*} [DecidableEq K] [Add V] (d : List (K × V)) (k : K) (v : V) : List (K × V) :=
  if k ∈ d.map Prod.fst then d.map fun p => if p.1 = k then (p.1, p.2 + v) else p else d ++ [(k, v)]

/-- The factor for coordinate `c` (discretizer.py l.463): the gcd of the offsets of all the summands; coordinates whose factor is below one are skipped. -/
noncomputable def rescaleFactor (coords : List Axis) (l : List Hop) (c : Axis) : ℤ :=
  if c ∈ coords then (if pyGcd (l.map fun e => e.1 c) < 1 then 1 else pyGcd (l.map fun e => e.1 c)) else 1

/-- The list of the summands with `offset[:, i] //= factor` and `a_c -> a_c / factor` in the coefficients (discretizer.py l.461-471). -/
noncomputable def rescaled (coords : List Axis) (l : List Hop) : List Hop :=
  l.map fun e => (fun c => (e.1 c).fdiv (rescaleFactor coords l c), fun h x => e.2 (fun c => h c / rescaleFactor coords l c) x)

/-- `_extract_hoppings` (discretizer.py l.449-472); the key is the tuple of the offsets of `coords`. -/
noncomputable def extractHoppings (coords : List Axis) (l : List Hop) : List (List ℤ × Coeff) :=
  (rescaled coords l).foldl (fun d e => addTo d (coords.map e.1) e.2) []

/-- There is a momentum operator in the summand. -/
def Factor.isMom : Factor → Bool
  | .mom _ _ => true
  | .fn _ => false

/-- The value of a factor that is not a differential operator. -/
noncomputable def Factor.value (kpar : Axis → ℂ) : Factor → Pos → ℂ
  | .mom c e => fun _ => kpar c ^ e
  | .fn g => g

/-- `_discretize_expression` (discretizer.py l.424-494). -/
noncomputable def discretizeExpression (kpar : Axis → ℂ) (coords : List Axis) (e : Expr) : List (List ℤ × Coeff) :=
  if e.any (fun t => t.any Factor.isMom) then
    e.foldl (fun d t => (extractHoppings coords (discretizeSummand kpar coords t)).foldl (fun d p => addTo d p.1 p.2) d) []
  else
    [(coords.map fun _ => 0, fun _ x => (e.map fun t => (t.map fun f => f.value kpar x).prod).sum)]

/-! ### `discretize_symbolic` -/

/-- What is raised. -/
inductive DErr where
  | type | value | key
deriving DecidableEq, Repr

/-- `c in 'xyz'` for a string `c`: a test for substrings. -/
def inXyz (c : String) : Bool := ["", "x", "y", "z", "xy", "yz", "xyz"].contains c

/-- `_position_operators[c]` -/
def axisOf : String → Option Axis
  | "x" => some 0
  | "y" => some 1
  | "z" => some 2
  | _ => none

/-- The name of the momentum operator. -/
def momName (c : Axis) : String := ["k_x", "k_y", "k_z"].getD c ""

/-- The coordinates (discretizer.py l.190-212): a copy of the argument, checked, or the sorted coordinates of the momentum operators that are present. -/
def readCoords (atoms : List String) (coords : Option (List String)) : Except DErr (List String) :=
  let r : Except DErr (List String) := match coords with
    | none => .ok ((["x", "y", "z"] : List String).filter fun c => atoms.contains ("k_" ++ c))
    | some l => if l ≠ l.mergeSort (fun a b => decide (a ≤ b)) then .error .value
        else if l.any fun c => !inXyz c then .error .value else .ok l
  match r with
  | .error e => .error e
  | .ok l => if l.length = 0 then .error .value else .ok l

variable {m m' : ℕ}

/-- A coefficient put at the place (i, j) of a zero matrix. -/
noncomputable def atEntry (i : Fin m) (j : Fin m') (v : Coeff) : Pos → Pos → Matrix (Fin m) (Fin m') ℂ :=
  fun h x i' j' => if i' = i ∧ j' = j then v h x else 0

/-- The tight-binding dict of all the hoppings (discretizer.py l.224-232). -/
noncomputable def allHoppings (kpar : Axis → ℂ) (coords : List Axis) (ham : Fin m → Fin m' → Expr) :
    List (List ℤ × (Pos → Pos → Matrix (Fin m) (Fin m') ℂ)) :=
  ((List.finRange m).flatMap fun i => (List.finRange m').map fun j => (i, j)).foldl
    (fun d ij => (discretizeExpression kpar coords (ham ij.1 ij.2)).foldl (fun d p => addTo d p.1 (atEntry ij.1 ij.2 p.2)) d)
    [(coords.map fun _ => 0, fun _ _ => 0)]

/-- `sorted(list(tb))[len(list(tb)) // 2:]` (discretizer.py l.235). -/
def wantedHoppings (keys : List (List ℤ)) : List (List ℤ) :=
  (keys.mergeSort (fun a b => decide (a ≤ b))).drop (keys.length / 2)

/-- `tb` without the Hermitian conjugates (discretizer.py l.236). -/
noncomputable def keepWanted {V : Type*} (tb : List (List ℤ × V)) : List (List ℤ × V) :=
  tb.filter fun p => decide (p.1 ∈ wantedHoppings (tb.map Prod.fst))

/-- `discretize_symbolic` (discretizer.py l.145-241) for a Hamiltonian in which the symbols `atoms` occur.  A coordinate that is a substring of "xyz" but not a
coordinate is a KeyError as soon as an entry has a momentum. -/
noncomputable def discretizeSymbolic (kpar : Axis → ℂ) (atoms : List String) (ham : Fin m → Fin m' → Expr) (coords : Option (List String)) :
    Except DErr (List (List ℤ × (Pos → Pos → Matrix (Fin m) (Fin m') ℂ)) × List String) :=
  if atoms.any fun s => s = "a_x" ∨ s = "a_y" ∨ s = "a_z" then .error .type
  else match readCoords atoms coords with
    | .error e => .error e
    | .ok l =>
      match l.mapM axisOf with
      | some cs => .ok (keepWanted (allHoppings kpar cs ham), l)
      | none =>
        if (List.finRange m).any fun i => (List.finRange m').any fun j => (ham i j).any fun t => t.any Factor.isMom then .error .key
        else .ok ([(l.map fun _ => 0, fun _ x i j => ((ham i j).map fun t => (t.map fun f => f.value kpar x).prod).sum)], l)

end Kwant.Continuum
