import Verif.Continuum.Model
import Mathlib.Analysis.SpecialFunctions.Pow.NNReal

/-!
Model of kwant/continuum/landau_levels.py: `to_landau_basis`, `discretize_landau`, `_builder_value`, `_ladder_term`, `_evaluate_ladder_term`, `_normalize_momenta`,
`_find_normal_coordinate`.

Simplifications
* A Hamiltonian is, as in the model of the discretizer, a matrix of lists of summands, a summand is the list of its factors; a factor is a power of the first or of the second of
  the two momenta in the plane, or any other factor (a power of the third momentum or a function of the position).
* `monomials` moves the ladder operators out of every summand, keeping their order (continuum/_common.py l.259-285); all the other factors commute with them.  The model does
  this before the discretization in the normal direction, which does not touch the ladder operators.  Equal ladder words of different summands are merged, summands whose coefficients cancel are not dropped.
* The order of the dict of ladder words is that of a permutation, chosen by the caller of `landauSystem`; all theorems are about every permutation.
* The generated Python functions are modelled by what they return; `sqrt` is exact, and raises for a negative argument.  The value of an element is `none` if it raises.
* A builder is modelled by its matrix elements between sites `(z, n)`.  Without the normal coordinate in the Hamiltonian there is no symmetry and `z = 0` only.
-/

set_option linter.unusedSectionVars false

namespace Kwant.Continuum

/-- The two momenta that are replaced by ladder operators. -/
inductive KM where
  | k0 | k1
deriving DecidableEq

/-- The raising operator `a^\dagger` and the lowering operator `a`. -/
inductive Ladder where
  | raise | lower
deriving DecidableEq

/-- A factor of a summand: a power of one of the two momenta, or anything else. -/
inductive LFactor where
  | k (q : KM) (e : ℕ)
  | other (f : Factor)

/-- A summand. -/
abbrev LTerm := List LFactor

/-- The momenta in the plane, in order (the part of a summand that becomes ladder operators). -/
def kword : LTerm → List KM
  | [] => []
  | .k q e :: t => List.replicate e q ++ kword t
  | .other _ :: t => kword t

/-- The other factors, in order. -/
def rest : LTerm → Term
  | [] => []
  | .k _ _ :: t => rest t
  | .other f :: t => f :: rest t

/-! ### `to_landau_basis` -/

/-- `sqrt(abs(B) / 2)` -/
noncomputable def landauS (B : ℝ) : ℝ := √(|B| / 2)

/-- What a momentum is replaced by (landau_levels.py l.62-69), the list of the summands. -/
noncomputable def ladderSubs (B : ℝ) : KM → List (Ladder × ℂ)
  | .k0 => [(.raise, landauS B), (.lower, landauS B)]
  | .k1 => [(.lower, Complex.I * landauS B), (.raise, -(Complex.I * landauS B))]

/-- A product of momenta after the substitution, expanded: words of ladder operators with their coefficients. -/
noncomputable def expandK (B : ℝ) : List KM → List (List Ladder × ℂ)
  | [] => [([], 1)]
  | q :: w => (ladderSubs B q).flatMap fun p => (expandK B w).map fun r => (p.1 :: r.1, p.2 * r.2)

/-! ### `_ladder_term`, `_evaluate_ladder_term` -/

/-- The sign of a ladder operator in the code (landau_levels.py l.337-343). -/
def Ladder.sign : Ladder → ℤ
  | .raise => 1
  | .lower => -1

/-- Powers of neighbouring equal operators are joined by sympy: put one more operator in front of a tuple of integers. -/
def consRun (l : Ladder) : List ℤ → List ℤ
  | [] => [l.sign]
  | m :: r => if 0 < l.sign * m then (m + l.sign) :: r else l.sign :: m :: r

/-- The exponents with signs of a word that is not empty. -/
def runsOf : List Ladder → List ℤ
  | [] => []
  | l :: w => consRun l (runsOf w)

/-- `_ladder_term` (landau_levels.py l.320-346); the empty word is the number 1, whose exponent gets the sign 0. -/
def ladderTerm (w : List Ladder) : List ℤ := if w = [] then [0] else runsOf w

/-- `range(lo, lo + k)` multiplied up: `functools.reduce(operator.mul, factors)`. -/
def rangeProd (lo : ℤ) : ℕ → ℤ
  | 0 => 1
  | k + 1 => rangeProd lo k * (lo + k)

/-- `sqrt`, raising for negative arguments. -/
noncomputable def pySqrt (z : ℤ) : Option ℝ := if z < 0 then none else some (√(z : ℝ))

/-- The loop of `_evaluate_ladder_term` (landau_levels.py l.396-407) over the reversed tuple. -/
noncomputable def evalLoop : List ℤ → ℤ → ℝ → Option ℝ
  | [], _, ret => some ret
  | m :: r, n, ret =>
    if 0 < m then (pySqrt (rangeProd (n + 1) m.toNat)).bind fun q => evalLoop r (n + m) (ret * q)
    else if m < 0 then
      if n = 0 then some 0
      else (pySqrt (rangeProd (n + m + 1) (-m).toNat)).bind fun q => evalLoop r (n + m) (ret * q)
    else (pySqrt 1).bind fun q => evalLoop r (n + m) (ret * q)

/-- `_evaluate_ladder_term` (landau_levels.py l.371-408). -/
noncomputable def evaluateLadderTerm (lt : List ℤ) (n : ℕ) (B : ℝ) : Option ℝ :=
  evalLoop (if B < 0 then lt.map fun i => -i else lt).reverse n 1

/-! ### `discretize_landau` -/

variable {m : ℕ}

/-- The summands of the Hamiltonian in the Landau basis: place in the matrix, summand, ladder word and its coefficient. -/
noncomputable def landauSummands (B : ℝ) (ham : Fin m → Fin m → List LTerm) : List ((Fin m × Fin m) × LTerm × (List Ladder × ℂ)) :=
  ((List.finRange m).flatMap fun i => (List.finRange m).map fun j => (i, j)).flatMap fun ij =>
    (ham ij.1 ij.2).flatMap fun t => (expandK B (kword t)).map fun p => (ij, t, p)

/-- The key of a part: offset in the normal direction and ladder word. -/
abbrev LKey := List ℤ × List Ladder

/-- All the hoppings in the normal direction, split by ladder words (landau_levels.py l.114-132 with discretizer.py l.224-232), before the Hermitian conjugates are dropped. -/
noncomputable def landauDict (kpar : Axis → ℂ) (ax : Axis) (B : ℝ) (ham : Fin m → Fin m → List LTerm) : List (LKey × (Pos → Pos → Matrix (Fin m) (Fin m) ℂ)) :=
  (landauSummands B ham).foldl (fun d e =>
    ((extractHoppings [ax] (discretizeSummand kpar [ax] (rest e.2.1))).map fun p => ((p.1, e.2.2.1), p.2)).foldl
      (fun d p => addTo d p.1 (atEntry e.1.1 e.1.2 fun h x => e.2.2.2 * p.2 h x)) d) []

/-- The offsets in the normal direction; zero is always there (discretizer.py l.225). -/
def outerKeys {V : Type*} (d : List (LKey × V)) : List (List ℤ) := ([0] :: d.map fun p => p.1.1).dedup

/-- The parts without those of the Hermitian conjugates (discretizer.py l.235-236). -/
def landauKept {V : Type*} (d : List (LKey × V)) : List (LKey × V) := d.filter fun p => decide (p.1.1 ∈ wantedHoppings (outerKeys d))

/-- `sum(inner_key)` (landau_levels.py l.139). -/
def net (w : List Ladder) : ℤ := (ladderTerm w).sum

/-- The `HoppingKind` of a part (landau_levels.py l.139). -/
def kindOf (k : LKey) : List ℤ × ℤ := (k.1, net k.2)

/-- The first occurrences in a list, in order: the keys of a dict that is filled from the list. -/
def firstOccs {α : Type*} [DecidableEq α] (l : List α) : List α := l.reverse.dedup.reverse

/-- The position of a site, and the other coordinates, which are parameters. -/
noncomputable def zpos (xpar : Pos) (ax : Axis) (gs : ℝ) (z : ℤ) : Pos := Function.update xpar ax (gs * z)

/-- The value functions of `_builder_value` (landau_levels.py l.206-317) for the parts `parts`: `idx` is the Landau level for `_evaluate_ladder_term`, `x` the position of `from_site`. -/
noncomputable def partsValue (B : ℝ) (a : Pos) (parts : List (LKey × (Pos → Pos → Matrix (Fin m) (Fin m) ℂ))) (x : Pos) (idx : ℕ) : Option (Matrix (Fin m) (Fin m) ℂ) :=
  if parts.all fun p => (evaluateLadderTerm (ladderTerm p.1.2) idx B).isSome then
    some (parts.map fun p => (((evaluateLadderTerm (ladderTerm p.1.2) idx B).getD 0 : ℝ) : ℂ) • p.2 a x).sum
  else none

/-- A builder: number of Landau levels, value on the sites, and the hopping kinds with their values (for `to_site` and `from_site`) in the order of the assignments. -/
structure LandauSystem (m : ℕ) where
  onsite : ℤ × ℕ → Option (Matrix (Fin m) (Fin m) ℂ)
  hops : List ((List ℤ × ℤ) × (ℤ × ℕ → ℤ × ℕ → Option (Matrix (Fin m) (Fin m) ℂ)))

open Classical in
/-- The builder (landau_levels.py l.134-176) from the dict of the parts. -/
noncomputable def landauSystem (B : ℝ) (xpar : Pos) (ax : Axis) (gs : ℝ) (d : List (LKey × (Pos → Pos → Matrix (Fin m) (Fin m) ℂ))) : LandauSystem m where
  onsite s := partsValue B (fun _ => gs) ((landauKept d).filter fun p => kindOf p.1 = ([0], 0)) (zpos xpar ax gs s.1) s.2
  hops := (([0], 1), fun _ _ => some 0) ::
    ((firstOccs ((landauKept d).map fun p => kindOf p.1)).filter fun k => k ≠ ([0], 0)).map fun k =>
      (k, fun s s' => partsValue B (fun _ => gs) ((landauKept d).filter fun p => kindOf p.1 = k) (zpos xpar ax gs s'.1) (if B < 0 then s.2 else s'.2))

/-- The difference of the tags of two sites. -/
def tagDiff (s s' : ℤ × ℕ) : List ℤ × ℤ := ([s.1 - s'.1], (s.2 : ℤ) - s'.2)

open Classical in
/-- The matrix element between two sites: the last assignment counts; the reverse of a hopping is its Hermitian conjugate. -/
noncomputable def LandauSystem.element (T : LandauSystem m) (s s' : ℤ × ℕ) : Option (Matrix (Fin m) (Fin m) ℂ) :=
  if s = s' then T.onsite s
  else match T.hops.reverse.find? (fun p => decide (p.1 = tagDiff s s' ∨ p.1 = tagDiff s' s)) with
    | none => some 0
    | some p => if p.1 = tagDiff s s' then p.2 s s' else (p.2 s' s).map Matrix.conjTranspose

/-! ### `_normalize_momenta`, `_find_normal_coordinate` -/

/-- The argument `momenta`: not given, a sequence of integers, a sequence of strings, or a sequence with something else in it. -/
inductive MomentaArg where
  | default
  | ints (l : List ℤ)
  | strs (l : List String)
  | mixed (len : ℕ)

/-- `_normalize_momenta` (landau_levels.py l.411-455). -/
def normalizeMomenta : MomentaArg → Except DErr (List Axis)
  | .default => .ok [0, 1]
  | .ints l => if l.length ≠ 2 then .error .value
      else if l.all fun i => 0 ≤ i ∧ i < 3 then .ok (l.map fun i => Fin.ofNat 3 i.toNat) else .error .value
  | .strs l => if l.length ≠ 2 then .error .value
      else if l.all fun s => ["k_x", "k_y", "k_z"].contains s then .ok (l.map fun s => Fin.ofNat 3 (["k_x", "k_y", "k_z"].idxOf s)) else .error .value
  | .mixed _ => .error .value

/-- `_find_normal_coordinate` (landau_levels.py l.458-463): the first momentum that is not one of the two. -/
def findNormal (ks : List Axis) : Option Axis := ([0, 1, 2] : List Axis).find? fun c => !(ks.contains c)

/-! ### The parameter `B` of the value functions -/

/-- The names of the arguments of a value function and whether the name `B` is bound in its body: `if "B" not in arg_names: B = +1`, where `arg_names` is the string of the
joined names (landau_levels.py l.265-279). -/
def bBound (args : List String) : Bool :=
  args.contains "B" || !((", ".intercalate args).toList.contains 'B')

end Kwant.Continuum
