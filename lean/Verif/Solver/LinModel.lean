import Verif.Solver.BlockModel
import Verif.System.SubModel
import Mathlib.Algebra.Star.Basic
import Mathlib.Algebra.Star.BigOperators
import Mathlib.Algebra.Ring.Basic

/-!
Model of solvers/common.py: `SparseSolver._make_linear_sys`, `smatrix`, `greens_function`.

Simplifications
* Exact arithmetic in a commutative star ring; sparse matrices are represented by their elements (duplicate entries are summed,
  as scipy does), so `lhsformat` and `rhsformat` play no role.
* The Hamiltonian, the numbers of orbitals, and for each lead its self-energy and its stabilized modes at the energy are
  given (the functions that calculate them are not part of this file); `energy` is a number of the ring.
* The test of Hermiticity is exact.
* Every shape mismatch that NumPy or scipy would report is `ValueError`.
* The deprecated `args` are not modelled.
-/

set_option linter.unusedSectionVars false

namespace Kwant.Solver
open Finset Kwant.System

section
variable {R : Type} [CommRing R] [StarRing R] [DecidableEq R]

/-- `StabilizedModes` (physics/leads.py l.148-200). -/
structure Modes (R : Type) where
  u : Mat R
  ulinv : Mat R
  nprop : ℕ
  sqrtHop : Mat R

/-- A lead: `is_selfenergy_lead`, what `selfenergy` returns, what `modes` returns, the interface (site numbers). -/
structure Lead (R : Type) where
  isSelfEnergy : Bool
  sigma : Mat R
  modes : Modes R
  interface : List ℕ

/-- What `_make_linear_sys` uses of a system. -/
structure SSys (R : Type) where
  ham : Mat R
  norb : List ℕ
  leads : List (Lead R)

/-- Exceptions. -/
inductive LErr where
  | value
  | assertion
  | type
  deriving DecidableEq

/-- `np.r_[tuple(slice(offsets[i], offsets[i + 1]) for i in interface)]` (common.py l.191-192, l.223-224): the orbitals of the
interface; an empty tuple is an error. -/
def ifaceOrbs (norb : List ℕ) (interface : List ℕ) : Except LErr (List ℕ) :=
  if interface = [] then .error .value
  else .ok (interface.flatMap fun i =>
    (List.range ((offsets norb).getD (i + 1) 0 - (offsets norb).getD i 0)).map fun k => (offsets norb).getD i 0 + k)

/-- `lhs + sig_sparse` (common.py l.199-202, l.265-268): element `(i, j)` of the self-energy is added at `(coords[i], coords[j])`. -/
def addSigma (lhs : Mat R) (coords : List ℕ) (sigma : Mat R) : Mat R :=
  ⟨lhs.rows, lhs.cols, fun α β => lhs.val α β + ∑ i ∈ range coords.length, ∑ j ∈ range coords.length,
    if coords[i]? = some α ∧ coords[j]? = some β then sigma.val i j else 0⟩

/-- `transf` (common.py l.232-234) -/
def transf (coords : List ℕ) (i α : ℕ) : R := if coords[i]? = some α then 1 else 0

/-- `v_sp = svd_v.T.conj() * transf` (common.py l.236) -/
def vSp (m : Modes R) (coords : List ℕ) (r α : ℕ) : R := ∑ i ∈ range coords.length, star (m.sqrtHop.val i r) * transf coords i α

/-- `np.dot(svd_v, u)` -/
def vu (m : Modes R) (i k : ℕ) : R := ∑ l ∈ range m.sqrtHop.cols, m.sqrtHop.val i l * m.u.val l k

/-- `transf.T * np.dot(svd_v, u[:, first:])` (common.py l.237-238, l.245-246) -/
def transfVu (m : Modes R) (coords : List ℕ) (α k : ℕ) : R := ∑ i ∈ range coords.length, transf coords i α * vu m i k

/-- Number of columns of `u_out`. -/
def Modes.nout (m : Modes R) : ℕ := m.u.cols - m.nprop

/-- `sp.bmat([[lhs, vdaguout_sp], [v_sp, -ulinv_out]])` (common.py l.239-242) -/
def extend (lhs : Mat R) (m : Modes R) (coords : List ℕ) : Mat R :=
  ⟨lhs.rows + m.sqrtHop.cols, lhs.cols + m.nout, fun ρ κ =>
    if ρ < lhs.rows then
      if κ < lhs.cols then lhs.val ρ κ else transfVu m coords ρ (m.nprop + (κ - lhs.cols))
    else
      if κ < lhs.cols then vSp m coords (ρ - lhs.rows) κ else - m.ulinv.val (ρ - lhs.rows) (m.nprop + (κ - lhs.cols))⟩

/-- Right-hand sides before they are resized. -/
inductive Rhs (R : Type) where
  | none
  /-- `(vdaguin_sp, ulinv_in)`: number of rows of the former, its elements (with the sign), the latter. -/
  | modes (rows : ℕ) (top : ℕ → ℕ → R) (bottom : Mat R)
  /-- `(coords,)` -/
  | coords (c : List ℕ)

/-- The variables of the loop over the leads: `lhs`, `indices`, `rhs`. -/
structure LState (R : Type) where
  lhs : Mat R
  indices : List (Option (List ℕ))
  rhs : List (Rhs R)

/-- Shapes that NumPy and scipy need for `np.dot` and `bmat`. -/
abbrev ShapesOk (lhs : Mat R) (m : Modes R) : Prop :=
  m.u.rows = m.sqrtHop.cols ∧ m.ulinv.rows = m.sqrtHop.cols ∧ m.ulinv.cols = m.u.cols ∧ lhs.cols = lhs.rows

/-- One pass of the loop over the leads with `realspace=False` (common.py l.178-252). -/
def leadStep (norb : List ℕ) (inLeads : List ℕ) (st : LState R) (leadnum : ℕ) (lead : Lead R) : Except LErr (LState R) :=
  if lead.isSelfEnergy then
    if leadnum ∈ inLeads then .error .assertion
    else match ifaceOrbs norb lead.interface with
      | .error e => .error e
      | .ok coords =>
        if ¬ (lead.sigma.rows = coords.length ∧ lead.sigma.cols = coords.length) then .error .value
        else .ok ⟨addSigma st.lhs coords lead.sigma, st.indices ++ [none], st.rhs ++ [.none]⟩
  else if lead.modes.u.rows = 0 then .ok { st with rhs := st.rhs ++ [.none] }
  else match ifaceOrbs norb lead.interface with
    | .error e => .error e
    | .ok coords =>
      if lead.modes.sqrtHop.rows ≠ coords.length then .error .value
      else if ¬ ShapesOk st.lhs lead.modes then .error .value
      else .ok
        { lhs := extend st.lhs lead.modes coords
          indices := st.indices ++ [some ((List.range lead.modes.nprop).map fun k => st.lhs.rows + k)]
          rhs := st.rhs ++ [if leadnum ∈ inLeads ∧ lead.modes.nprop > 0 then
            .modes st.lhs.rows (fun α k => - transfVu lead.modes coords α k) ⟨lead.modes.ulinv.rows, lead.modes.nprop, lead.modes.ulinv.val⟩
            else .none] }

/-- One pass with `realspace=True` (common.py l.253-273). -/
def leadStepReal (norb : List ℕ) (inLeads : List ℕ) (st : LState R) (leadnum : ℕ) (lead : Lead R) : Except LErr (LState R) :=
  match ifaceOrbs norb lead.interface with
  | .error e => .error e
  | .ok coords =>
    if ¬ (lead.sigma.rows = coords.length ∧ lead.sigma.cols = coords.length) then .error .value
    else .ok ⟨addSigma st.lhs coords lead.sigma, st.indices ++ [some coords],
      if leadnum ∈ inLeads then st.rhs ++ [.coords coords] else st.rhs⟩

/-- The loop over the leads. -/
def leadLoop (step : LState R → ℕ → Lead R → Except LErr (LState R)) : LState R → ℕ → List (Lead R) → Except LErr (LState R)
  | st, _, [] => .ok st
  | st, n, lead :: leads =>
    match step st n lead with
    | .error e => .error e
    | .ok st => leadLoop step st (n + 1) leads

/-- Resizing the right-hand sides (common.py l.275-296). -/
def resize (rows : ℕ) : Rhs R → Mat R
  | .none => ⟨rows, 0, fun _ _ => 0⟩
  | .coords c => ⟨rows, c.length, fun α k => if c[k]? = some α then -1 else 0⟩
  | .modes r top bottom => ⟨rows, bottom.cols, fun α k =>
      if α < r then top α k else if α < r + bottom.rows then bottom.val (α - r) k else 0⟩

/-- `LinearSys` -/
structure LinearSys (R : Type) where
  lhs : Mat R
  rhs : List (Mat R)
  indices : List (Option (List ℕ))
  numOrb : ℕ

/-- `syst.hamiltonian_submatrix(...) - energy * identity` (common.py l.151-155) -/
def hamMinusE (H : Mat R) (energy : R) : Mat R := ⟨H.rows, H.cols, fun α β => H.val α β - if α = β then energy else 0⟩

/-- `(lhs - lhs.T.conj())` has no nonzero element (common.py l.158-165). -/
def isHermitian (m : Mat R) : Bool :=
  (List.range m.rows).all fun i => (List.range m.cols).all fun j => decide (m.val i j = star (m.val j i))

/-- `_make_linear_sys` (common.py l.85-298). -/
def makeLinearSys (sys : SSys R) (inLeads : List ℕ) (energy : R) (check realspace : Bool) : Except LErr (LinearSys R) :=
  if sys.leads = [] then .error .value
  else if check && !isHermitian (hamMinusE sys.ham energy) then .error .value
  else
    match leadLoop ((if realspace then leadStepReal else leadStep) sys.norb inLeads) ⟨hamMinusE sys.ham energy, [], []⟩ 0 sys.leads with
    | .error e => .error e
    | .ok st => .ok ⟨st.lhs, st.rhs.map (resize st.lhs.rows), st.indices, sys.ham.rows⟩

/-- `np.concatenate([coords for i, coords in enumerate(linsys.indices) if i in out_leads])` (common.py l.385-387): an empty list
is a `ValueError`, an element `None` too (zero-dimensional arrays cannot be concatenated). -/
def keptVars (indices : List (Option (List ℕ))) (outLeads : List ℕ) : Except LErr (List ℕ) :=
  let l := (indices.zipIdx.filter fun p => p.2 ∈ outLeads).map Prod.fst
  if l = [] ∨ none ∈ l then .error .value
  else .ok (l.flatMap fun o => o.getD [])

/-- `np.any(np.diff(leads) <= 0)` -/
def notSorted : List ℕ → Bool
  | a :: b :: l => decide (b ≤ a) || notSorted (b :: l)
  | _ => false

/-- The validation of lead lists (common.py l.357-370). -/
def leadLists (n : ℕ) (outLeads inLeads : Option (List ℕ)) : Except LErr (List ℕ × List ℕ) :=
  let i := inLeads.getD (List.range n)
  let o := outLeads.getD (List.range n)
  if notSorted i || notSorted o then .error .value
  else if i = [] ∨ o = [] then .error .value
  else .ok (o, i)

/-- What `smatrix` computes before the linear solve (common.py l.354-400): the linear system, the kept variables, and the lead
lists.  Of several wrong leads the first one decides about the exception; here `IndexError` has precedence.  `syst.leads[lead]` raises `IndexError` (here `type`) for a lead that does not exist. -/
def smatrixSetup (sys : SSys R) (energy : R) (outLeads inLeads : Option (List ℕ)) (check : Bool) :
    Except LErr (LinearSys R × List ℕ × List ℕ × List ℕ) :=
  match leadLists sys.leads.length outLeads inLeads with
  | .error e => .error e
  | .ok (o, i) =>
    if (i ++ o).any fun l => decide (sys.leads.length ≤ l) then .error .type
    else if (i ++ o).any fun l => (sys.leads.map Lead.isSelfEnergy).getD l false then .error .value
    else
      match makeLinearSys sys i energy check false with
      | .error e => .error e
      | .ok ls =>
        match keptVars ls.indices o with
        | .error e => .error e
        | .ok kv => .ok (ls, kv, o, i)

/-- The same for `greens_function` (common.py l.454-496); no lead is looked up before `_make_linear_sys`. -/
def greensSetup (sys : SSys R) (energy : R) (outLeads inLeads : Option (List ℕ)) (check : Bool) :
    Except LErr (LinearSys R × List ℕ × List ℕ × List ℕ) :=
  match leadLists sys.leads.length outLeads inLeads with
  | .error e => .error e
  | .ok (o, i) =>
    match makeLinearSys sys i energy check true with
    | .error e => .error e
    | .ok ls =>
      match keptVars ls.indices o with
      | .error e => .error e
      | .ok kv => .ok (ls, kv, o, i)

/-- Matrix times vector. -/
def mulVec (m : Mat R) (x : ℕ → R) (ρ : ℕ) : R := ∑ κ ∈ range m.cols, m.val ρ κ * x κ

/-- `sp.bmat([rhs])` (common.py l.396): column `c` of the blocks side by side. -/
def rhsCol : List (Mat R) → ℕ → ℕ → R
  | [], _, _ => 0
  | b :: l, c, α => if c < b.cols then b.val α c else rhsCol l (c - b.cols) α

end
end Kwant.Solver
