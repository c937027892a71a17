import Mathlib.Data.Complex.Basic
import Mathlib.Algebra.BigOperators.Group.Finset.Basic
import Mathlib.Algebra.BigOperators.Ring.Finset
import Mathlib.Algebra.BigOperators.Group.Finset.Piecewise
import Mathlib.Algebra.BigOperators.Intervals
import Mathlib.Algebra.Order.BigOperators.Group.Finset

/-!
Model of solvers/common.py: `BlockResult` and `SMatrix`.

Simplifications
* Exact complex and real arithmetic.
* Lead numbers are natural numbers (negative numbers, which NumPy indexing would accept, are not modelled).
* `lead_info` enters through its length, the numbers of propagating modes and the sizes of the symmetry blocks.
-/

set_option linter.unusedSectionVars false

namespace Kwant.Solver
open Finset

/-- Exceptions: `ValueError`; `index` stands for `IndexError` or `TypeError` when a symmetry block does not exist. -/
inductive SErr where
  | value
  | index
  deriving DecidableEq

/-- `np.cumsum` -/
def cumsum : ℕ → List ℕ → List ℕ
  | _, [] => []
  | s, x :: l => (s + x) :: cumsum (s + x) l

/-- `offsets = np.zeros(len + 1, int); offsets[1:] = np.cumsum(sizes[leads])` (common.py l.658-662, l.836-837). -/
def offsets (sizes : List ℕ) : List ℕ := 0 :: cumsum 0 sizes

/-- An `SMatrix` (common.py l.651-662, l.799-848).  `blockSizes lead`: `block_nmodes`, if the lead has it. -/
structure SMat where
  data : ℕ → ℕ → ℂ
  nLeads : ℕ
  outLeads : List ℕ
  inLeads : List ℕ
  sizes : ℕ → ℕ
  blockSizes : ℕ → Option (List ℕ)
  currentConserving : Bool

/-- What a slice can be asked for: a lead or a symmetry block of a lead. -/
inductive LeadSel where
  | lead (l : ℕ)
  | block (l b : ℕ)

/-- `leads.index(lead)` followed by the slice between two offsets (common.py l.670-683). -/
def leadSlice (sizes : ℕ → ℕ) (leads : List ℕ) (lead : ℕ) : Except SErr (ℕ × ℕ) :=
  if lead ∈ leads then
    .ok ((offsets (leads.map sizes)).getD (leads.idxOf lead) 0, (offsets (leads.map sizes)).getD (leads.idxOf lead + 1) 0)
  else .error .value

/-- `out_block_coords`, `in_block_coords` of `SMatrix` (common.py l.850-879). -/
def blockCoords (s : SMat) (leads : List ℕ) : LeadSel → Except SErr (ℕ × ℕ)
  | .lead l => leadSlice s.sizes leads l
  | .block l b =>
    if l ∈ leads then
      match s.blockSizes l with
      | none => .error .index
      | some bs =>
        if b < bs.length then
          let o := (offsets (leads.map s.sizes)).getD (leads.idxOf l) 0
          .ok (o + (offsets bs).getD b 0, o + (offsets bs).getD (b + 1) 0)
        else .error .index
    else .error .value

/-- `_transmission` (common.py l.881-882): `np.linalg.norm(submatrix) ** 2`. -/
def transmission' (s : SMat) (o i : LeadSel) : Except SErr ℝ :=
  match blockCoords s s.outLeads o with
  | .error e => .error e
  | .ok r =>
    match blockCoords s s.inLeads i with
    | .error e => .error e
    | .ok c => .ok (∑ x ∈ Ico r.1 r.2, ∑ y ∈ Ico c.1 c.2, Complex.normSq (s.data x y))

/-- `sum(f(x) for x in l)` where `f` can raise. -/
def sumE (f : ℕ → Except SErr ℝ) : List ℕ → Except SErr ℝ
  | [] => .ok 0
  | x :: l =>
    match f x with
    | .error e => .error e
    | .ok v =>
      match sumE f l with
      | .error e => .error e
      | .ok w => .ok (v + w)

/-- `num_propagating` -/
def SMat.numProp (s : SMat) (l : ℕ) : ℝ := s.sizes l

/-- The element of the sum in the last case of `BlockResult.transmission` (common.py l.736-737):
`s_t(o, i) - self.num_propagating(o) if o == i else 0`, where the conditional expression has the lowest precedence. -/
def centerTerm (s : SMat) (o i : ℕ) : Except SErr ℝ :=
  if o = i then
    match transmission' s (.lead o) (.lead i) with
    | .error e => .error e
    | .ok v => .ok (v - s.numProp o)
  else .ok 0

/-- `BlockResult.transmission` (common.py l.703-740). -/
def transmission (s : SMat) (o i : ℕ) : Except SErr ℝ :=
  if o ∈ s.outLeads ∧ i ∈ s.inLeads then transmission' s (.lead o) (.lead i)
  else if s.currentConserving = false then .error .value
  else if o ∈ s.outLeads then
    -- sum over the incoming leads
    if s.inLeads.length = s.nLeads - 1 then
      match sumE (fun c => transmission' s (.lead o) (.lead c)) s.inLeads with
      | .error e => .error e
      | .ok v => .ok (s.numProp o - v)
    else .error .value
  else if i ∈ s.inLeads then
    if s.outLeads.length = s.nLeads - 1 then
      match sumE (fun c => transmission' s (.lead c) (.lead i)) s.outLeads with
      | .error e => .error e
      | .ok v => .ok (s.numProp i - v)
    else .error .value
  else if s.outLeads.length = s.nLeads - 1 ∧ s.inLeads.length = s.nLeads - 1 then
    sumE (fun o => sumE (fun i => centerTerm s o i) s.inLeads) s.outLeads
  else .error .value

/-- `SMatrix.transmission` (common.py l.884-896). -/
def transmissionSel (s : SMat) : LeadSel → LeadSel → Except SErr ℝ
  | .lead o, .lead i => transmission s o i
  | o, i => transmission' s o i

/-- One row of the list comprehension of `conductance_matrix`. -/
def rowE (f : ℕ → Except SErr ℝ) : List ℕ → Except SErr (List ℝ)
  | [] => .ok []
  | j :: l =>
    match f j with
    | .error e => .error e
    | .ok v =>
      match rowE f l with
      | .error e => .error e
      | .ok w => .ok (v :: w)

/-- All rows. -/
def rowsE (f : ℕ → ℕ → Except SErr ℝ) (n : ℕ) : List ℕ → Except SErr (List (List ℝ))
  | [] => .ok []
  | i :: l =>
    match rowE (f i) (List.range n) with
    | .error e => .error e
    | .ok r =>
      match rowsE f n l with
      | .error e => .error e
      | .ok rs => .ok (r :: rs)

/-- `-self.transmission(i, j) if i != j else 0` -/
def condEl (s : SMat) (i j : ℕ) : Except SErr ℝ :=
  if i ≠ j then
    match transmission s i j with
    | .error e => .error e
    | .ok v => .ok (-v)
  else .ok 0

/-- `result.flat[::n+1] = -result.sum(axis=0)` (common.py l.756) on the array `result`. -/
def setDiag (n : ℕ) (a : ℕ → ℕ → ℝ) (i j : ℕ) : ℝ := if i = j then -(∑ k ∈ range n, a k j) else a i j

/-- `conductance_matrix` (common.py l.742-757). -/
def conductanceMatrix (s : SMat) : Except SErr (ℕ → ℕ → ℝ) :=
  match rowsE (condEl s) s.nLeads (List.range s.nLeads) with
  | .error e => .error e
  | .ok rows => .ok (setDiag s.nLeads fun i j => (rows.getD i []).getD j 0)

end Kwant.Solver
