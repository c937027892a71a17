import Mathlib.Algebra.Star.Basic
import Mathlib.Algebra.Ring.Basic
import Verif.System.SubModel
import Verif.System.SiteRanges

/-!
Model of operator.pyx: `where` and `onsite` normalization, `BlockSparseMatrix`, `Density`, `Current`, `Source`.

Simplifications
* Numbers are elements of a commutative star ring `R` with an imaginary unit and a real part (`CLike`; ℂ is the intended
  one): exact arithmetic.  Hence `_is_herm_conj` is exact equality.
* C integers are natural numbers where they are known to be nonnegative.
* Raw pointers (`complex *M_a`) are functions `ℕ → R`; what lies outside the array is arbitrary memory (`junk`).
* `args` and `params` are one optional value of type `P`; selecting the parameters by name is part of the value functions.
* `bra is ket` holds iff `ket` is not given.
* The deprecation warning is not modelled.
-/

set_option linter.unusedSectionVars false

namespace Kwant.Oper
open Kwant Kwant.System Kwant.Graph Kwant.Final

/-- The number type: imaginary unit and real part. -/
class CLike (R : Type) [CommRing R] [StarRing R] where
  I : R
  re : R → R
  star_I : star I = -I
  re_self : ∀ x : R, star x = x → re x = x

/-- Exceptions. -/
inductive OErr (E : Type) where
  | value
  | type
  | index
  | key
  | userCode
  | graph (e : GErr)
  | user (e : E)

section
variable {R P E F : Type} [CommRing R] [StarRing R] [DecidableEq R] [CLike R] [DecidableEq F]

/-! ### `where` -/

/-- What the functions below use of a system. -/
structure WSys where
  infinite : Bool
  cellSize : ℕ
  graph : CGraph
  /-- Whether the system is a finalized builder (`syst.sites` exists). -/
  hasSites : Bool

/-- Forms of `where` for sites.  Sites of finalized builders are represented by their index: `id_by_site` is the inverse
of `sites` (C40, C46). -/
inductive SiteWhere where
  | all
  | pred (p : ℕ → Bool)
  | list (l : List ℤ)

/-- Number of sites that may be used: `cell_size` or `graph.num_nodes`. -/
def WSys.nSites (s : WSys) : ℕ := if s.infinite then s.cellSize else s.graph.numNodes

/-- First part of `_normalize_site_where` (operator.pyx l.168-188): the list of integers. -/
def siteInts (s : WSys) : SiteWhere → Except (OErr E) (List ℤ)
  | .all => .ok ((List.range s.nSites).map fun i : ℕ => (i : ℤ))
  | .pred p => .ok (((List.range (if s.hasSites then s.graph.numNodes else s.nSites)).filter p).map fun i : ℕ => (i : ℤ))
  | .list [] => .error .index
  | .list l => .ok l

/-- `_normalize_site_where` (operator.pyx l.160-199). -/
def normalizeSites (s : WSys) (w : SiteWhere) : Except (OErr E) (List ℤ) :=
  match siteInts s w with
  | .error e => .error e
  | .ok l =>
    if s.infinite && l.any fun i => decide (i ≥ s.cellSize) then .error .value
    else if l.any fun i => decide (i < 0) || decide (i ≥ s.graph.numNodes) then .error .value
    else .ok l

/-- Forms of `where` for hoppings. -/
inductive HopWhere where
  | all
  | pred (p : ℤ → ℤ → Bool)
  | list (l : List (ℤ × ℤ))

/-- `any(not syst.graph.has_edge(*w) for w in where)` with the exceptions translated (operator.pyx l.236-243). -/
def checkEdges (g : CGraph) : List (ℤ × ℤ) → Except (OErr E) Unit
  | [] => .ok ()
  | (a, b) :: l =>
    match g.hasEdge a b with
    | .ok true => checkEdges g l
    | .ok false => .error .value
    | .error .nodeDoesNotExist => .error .value
    | .error .disabledFeature => .error .value
    | .error e => .error (.graph e)

/-- First part of `_normalize_hopping_where` (operator.pyx l.210-243). -/
def hopInts (s : WSys) : HopWhere → Except (OErr E) (List (ℤ × ℤ))
  | .all =>
    if s.infinite then .error .value
    else match s.graph.toList with
      | .ok l => .ok l
      | .error e => .error (.graph e)
  | .pred p =>
    match s.graph.toList with
    | .ok l => .ok (l.filter fun h => p h.1 h.2)
    | .error e => .error (.graph e)
  | .list [] => .error .index
  | .list l =>
    match checkEdges s.graph l with
    | .ok _ => .ok l
    | .error e => .error e

/-- `_normalize_hopping_where` (operator.pyx l.202-251): the final test is `where > syst.cell_size`. -/
def normalizeHops (s : WSys) (w : HopWhere) : Except (OErr E) (List (ℤ × ℤ)) :=
  match hopInts s w with
  | .error e => .error e
  | .ok l =>
    if s.infinite && l.any fun h => decide (h.1 > s.cellSize) || decide (h.2 > s.cellSize) then .error .value
    else .ok l

/-! ### Checks -/

/-- `_is_herm_conj(a, b)` (operator.pyx l.50-74), exact. -/
def isHermConj (a b : Mat R) : Bool :=
  (List.range a.rows).all fun i => (List.range a.cols).all fun j => decide (a.val i j = star (b.val j i))

/-- `_check_onsite` (operator.pyx l.85-94). -/
def checkOnsite (M : Mat R) (norbs : ℕ) (herm : Bool) : Except (OErr E) Unit :=
  if M.rows ≠ M.cols then .error .userCode
  else if M.rows ≠ norbs then .error .userCode
  else if herm && !isHermConj M M then .error .value
  else .ok ()

/-- The shape test of `_check_ham` (operator.pyx l.101): note the `and`. -/
def hamShapeBad (H : Mat R) (aN bN : ℕ) : Bool := decide (H.rows ≠ aN) && decide (H.cols ≠ bN)

/-- `_check_ham` (operator.pyx l.97-110); `ham b a` is `ta.matrix(ham(b, a, *args, params=params))`. -/
def checkHam (H : Mat R) (ham : ℕ → ℕ → Except E (Mat R)) (a aN b bN : ℕ) (herm : Bool) : Except (OErr E) Unit :=
  if hamShapeBad H aN bN then .error .userCode
  else if herm then
    match (if a = b then .ok H else ham b a) with
    | .error e => .error (.user e)
    | .ok Hc => if isHermConj Hc H then .ok () else .error .value
  else .ok ()

/-! ### `onsite` -/

/-- A normalized onsite: a matrix or a function of the site and the parameters. -/
inductive Onsite (R P E : Type) where
  | mat (m : Mat R)
  | func (f : ℕ → Option P → Except (OErr E) (Mat R))

/-- Forms of the argument `onsite`. -/
inductive OnsiteArg (R P E F : Type) where
  | func (f : ℕ → Option P → Except (OErr E) (Mat R))
  | dict (d : List (F × Mat R))
  | single (m : Mat R)

/-- The check of a dict of onsites (operator.pyx l.293-296). -/
def checkDict (norbs : F → ℕ) (herm : Bool) : List (F × Mat R) → Except (OErr E) Unit
  | [] => .ok ()
  | (f, m) :: d =>
    match checkOnsite m (norbs f) herm with
    | .error e => .error e
    | .ok _ => checkDict norbs herm d

/-- `_DictOnsite.__call__` (operator.pyx l.267-270). -/
def dictOnsite (fam : ℕ → F) (d : List (F × Mat R)) (i : ℕ) (_ : Option P) : Except (OErr E) (Mat R) :=
  match Assoc.get d (fam i) with
  | some m => .ok m
  | none => .error .key

/-- `c * ta.identity(n)` -/
def scalarMat (c : R) (n : ℕ) : Mat R := ⟨n, n, fun i j => if i = j then c else 0⟩

/-- `max(norbs for (_, norbs, _) in syst.site_ranges)` -/
def maxNorbs (r : List (ℕ × ℕ × ℕ)) : ℕ := (r.map fun e => e.2.1).foldl max 0

/-- `_normalize_onsite` (operator.pyx l.273-321); `fam i` is the family of site `i`, `hasSites`: finalized builder. -/
def normalizeOnsite (r : List (ℕ × ℕ × ℕ)) (hasSites : Bool) (fam : ℕ → F) (norbs : F → ℕ) (herm : Bool) :
    OnsiteArg R P E F → Except (OErr E) (Onsite R P E)
  | .func f => .ok (.func f)
  | .dict d =>
    if !hasSites then .error .type
    else match checkDict norbs herm d with
      | .error e => .error e
      | .ok _ => .ok (.func (dictOnsite fam d))
  | .single m =>
    match checkOnsite m m.rows herm with
    | .error e => .error e
    | .ok _ =>
      if m.rows = 1 then .ok (.mat (scalarMat (m.val 0 0) (maxNorbs r)))
      else match (r.dropLast.map fun e => e.2.1).dedup with
        | [n] => if m.rows ≠ n then .error .value else .ok (.mat m)
        | _ => .error .value

/-! ### `BlockSparseMatrix` -/

/-- Reading a contiguous matrix through a raw pointer. -/
def flat (junk : ℕ → R) (m : Mat R) (k : ℕ) : R := if k < m.rows * m.cols then m.val (k / m.cols) (k % m.cols) else junk k

/-- `BlockSparseMatrix` (operator.pyx l.324-408). -/
structure BSM (R : Type) where
  blockOffsets : List (ℕ × ℕ)
  blockShapes : List (ℕ × ℕ)
  dataOffsets : List ℕ
  dataSize : ℕ
  data : ℕ → R

/-- The loop that calculates `data_offsets` and the size (operator.pyx l.370-373). -/
def offsetsLoop : List (ℕ × ℕ) → ℕ → List ℕ × ℕ
  | [], s => ([], s)
  | (n, m) :: l, s => (s :: (offsetsLoop l (s + n * m)).1, (offsetsLoop l (s + n * m)).2)

/-- `self.data[off + i * b_norbs + j] = mat[i, j]` for all `i`, `j` (operator.pyx l.387-389). -/
def copyMat (data : ℕ → R) (off aN bN : ℕ) (m : Mat R) : ℕ → R :=
  (List.range aN).foldl (fun d i => (List.range bN).foldl (fun d j => Function.update d (off + i * bN + j) (m.val i j)) d) data

/-- The loop that populates `data` (operator.pyx l.375-389). -/
def populate (f : ℕ → ℕ → ℕ → ℕ → Except (OErr E) (Mat R)) :
    List (ℕ × ℕ) → List (ℕ × ℕ) → List ℕ → (ℕ → R) → Except (OErr E) (ℕ → R)
  | (a, b) :: wh, (aN, bN) :: sh, off :: offs, data =>
    match f a aN b bN with
    | .error e => .error e
    | .ok m => populate f wh sh offs (copyMat data off aN bN m)
  | _, _, _, data => .ok data

/-- `BlockSparseMatrix.__init__` (operator.pyx l.360-389).  `wh`: pairs `(a, b)`; for an `Nx1` array `b = a`.
`junk` is the content of the freshly allocated array. -/
def BSM.init (junk : ℕ → R) (wh offsets shapes : List (ℕ × ℕ)) (f : ℕ → ℕ → ℕ → ℕ → Except (OErr E) (Mat R)) :
    Except (OErr E) (BSM R) :=
  if offsets.length ≠ wh.length ∨ shapes.length ≠ wh.length then .error .value
  else
    let o := offsetsLoop shapes 0
    match populate f wh shapes o.1 junk with
    | .error e => .error e
    | .ok data => .ok ⟨offsets, shapes, o.1, o.2, data⟩

/-- `BlockSparseMatrix.get` (operator.pyx l.391-392): a raw pointer. -/
def BSM.get (b : BSM R) (w : ℕ) : ℕ → R := fun k => b.data (b.dataOffsets.getD w 0 + k)

/-! ### Operators -/

inductive Kind where
  | density
  | current
  | source

/-- `_LocalOperator` (operator.pyx l.418-467) and subclasses.  `wh` are pairs; for operators on sites `(a, a)`
(`_get_all_orbs`, operator.pyx l.135-143).  `ham` and `nSites` stand for the system. -/
structure Op (R P E : Type) where
  kind : Kind
  wh : List (ℕ × ℕ)
  onsite : Onsite R P E
  ranges : List (ℕ × ℕ × ℕ)
  nSites : ℕ
  ham : ℕ → ℕ → Option P → Except E (Mat R)
  check : Bool
  sum : Bool
  boundOnsite : Option (BSM R)
  boundHam : Option (BSM R)

/-- `_get_all_orbs` (operator.pyx l.130-148). -/
def allOrbs (wh : List (ℕ × ℕ)) (r : List (ℕ × ℕ × ℕ)) : List (ℕ × ℕ) × List (ℕ × ℕ) :=
  (wh.map fun w => ((getOrbs r w.1).1, (getOrbs r w.2).1), wh.map fun w => ((getOrbs r w.1).2, (getOrbs r w.2).2))

/-- `get_onsite` (operator.pyx l.684-687). -/
def getOnsite (f : ℕ → Option P → Except (OErr E) (Mat R)) (p : Option P) (check : Bool) (a aN _b _bN : ℕ) :
    Except (OErr E) (Mat R) :=
  match f a p with
  | .error e => .error e
  | .ok m =>
    match checkOnsite m aN check with
    | .error e => .error e
    | .ok _ => .ok m

/-- `_eval_onsites` (operator.pyx l.666-690), for a callable onsite. -/
def evalOnsites (junk : ℕ → R) (op : Op R P E) (f : ℕ → Option P → Except (OErr E) (Mat R)) (p : Option P) :
    Except (OErr E) (BSM R) :=
  BSM.init junk op.wh (allOrbs op.wh op.ranges).1 (allOrbs op.wh op.ranges).2 (getOnsite f p op.check)

/-- `get_ham` (operator.pyx l.698-702). -/
def getHam (ham : ℕ → ℕ → Except E (Mat R)) (check : Bool) (a aN b bN : ℕ) : Except (OErr E) (Mat R) :=
  match ham a b with
  | .error e => .error (.user e)
  | .ok m =>
    match checkHam m ham a aN b bN check with
    | .error e => .error e
    | .ok _ => .ok m

/-- `_eval_hamiltonian` (operator.pyx l.692-705). -/
def evalHam (junk : ℕ → R) (op : Op R P E) (p : Option P) : Except (OErr E) (BSM R) :=
  BSM.init junk op.wh (allOrbs op.wh op.ranges).1 (allOrbs op.wh op.ranges).2 (getHam (fun a b => op.ham a b p) op.check)

/-- The pointers `M_a` of the iterations (operator.pyx l.780-786, l.798-799 and the same in the other classes). -/
def onsitePtr (junk : ℕ → R) (op : Op R P E) (p : Option P) : Except (OErr E) (ℕ → ℕ → R) :=
  match op.onsite with
  | .mat m => .ok fun _ => flat junk m
  | .func f =>
    match op.boundOnsite with
    | some b => .ok b.get
    | none =>
      match evalOnsites junk op f p with
      | .error e => .error e
      | .ok b => .ok b.get

/-- The Hamiltonian blocks (operator.pyx l.957-960, l.1085-1088). -/
def hamBlocks (junk : ℕ → R) (op : Op R P E) (p : Option P) : Except (OErr E) (BSM R) :=
  match op.boundHam with
  | some b => .ok b
  | none => evalHam junk op p

/-- `for i in range(n): tmp += g(i)` -/
def loopSum (n : ℕ) (tmp : R) (g : ℕ → R) : R := (List.range n).foldl (fun t i => t + g i) tmp

/-- Inner loops of `Density._operate` with `MAT_ELS` (operator.pyx l.802-807). -/
def densityEl (M : ℕ → R) (bra ket : ℕ → R) (s n : ℕ) : R :=
  (List.range n).foldl (fun t i => loopSum n t fun j => star (bra (s + i)) * M (i * n + j) * ket (s + j)) 0

/-- Inner loops of `Density._operate` with `ACT` (operator.pyx l.809-813). -/
def densityAct (M : ℕ → R) (ket : ℕ → R) (s n : ℕ) (out : ℕ → R) : ℕ → R :=
  (List.range n).foldl (fun o i =>
    Function.update o (s + i) (o (s + i) + loopSum n 0 fun j => M (i * n + j) * ket (s + j))) out

/-- Inner loops of `Current._operate` with `MAT_ELS` (operator.pyx l.978-988). -/
def currentEl (M H : ℕ → R) (bra ket : ℕ → R) (as aN bs bN : ℕ) : R :=
  CLike.I * (List.range bN).foldl (fun t i => (List.range aN).foldl (fun t j => loopSum aN t fun k =>
    star (bra (bs + i)) * star (H (j * bN + i)) * M (j * aN + k) * ket (as + k)
      - star (bra (as + j)) * M (j * aN + k) * H (k * bN + i) * ket (bs + i)) t) 0

/-- One pass of the innermost loop of `Current._operate` with `ACT` (operator.pyx l.993-1000). -/
def currentActStep (M H : ℕ → R) (ket : ℕ → R) (as aN bs bN i j : ℕ) (o : ℕ → R) (k : ℕ) : ℕ → R :=
  let o1 := Function.update o (bs + i) (o (bs + i) + CLike.I * star (H (j * bN + i)) * M (j * aN + k) * ket (as + k))
  Function.update o1 (as + j) (o1 (as + j) - CLike.I * M (j * aN + k) * H (k * bN + i) * ket (bs + i))

/-- Inner loops of `Current._operate` with `ACT` (operator.pyx l.990-1000). -/
def currentAct (M H : ℕ → R) (ket : ℕ → R) (as aN bs bN : ℕ) (out : ℕ → R) : ℕ → R :=
  (List.range bN).foldl (fun o i => (List.range aN).foldl (fun o j =>
    (List.range aN).foldl (currentActStep M H ket as aN bs bN i j) o) o) out

/-- The value `tmp` of `Source._operate` for one `i` (operator.pyx l.1108-1114, l.1119-1125). -/
def sourceTmp (M H : ℕ → R) (ket : ℕ → R) (s n i : ℕ) : R :=
  (List.range n).foldl (fun t j => loopSum n t fun k =>
    star (H (j * n + i)) * M (j * n + k) * ket (s + k) - M (i * n + j) * H (j * n + k) * ket (s + k)) 0

/-- Inner loops of `Source._operate` with `MAT_ELS` (operator.pyx l.1106-1116). -/
def sourceEl (M H : ℕ → R) (bra ket : ℕ → R) (s n : ℕ) : R :=
  CLike.I * loopSum n 0 fun i => star (bra (s + i)) * sourceTmp M H ket s n i

/-- Inner loops of `Source._operate` with `ACT` (operator.pyx l.1118-1126). -/
def sourceAct (M H : ℕ → R) (ket : ℕ → R) (s n : ℕ) (out : ℕ → R) : ℕ → R :=
  (List.range n).foldl (fun o i => Function.update o (s + i) (o (s + i) + CLike.I * sourceTmp M H ket s n i)) out

/-- Matrix elements for block `w`; `Hb` are the Hamiltonian blocks (not used by `Density`). -/
def blockEl (op : Op R P E) (M : ℕ → ℕ → R) (Hb : BSM R) (bra ket : ℕ → R) (w : ℕ) : R :=
  match op.kind with
  | .density => let o := getOrbs op.ranges (op.wh.getD w (0, 0)).1; densityEl (M w) bra ket o.1 o.2
  | .current => let s := Hb.blockOffsets.getD w (0, 0); let n := Hb.blockShapes.getD w (0, 0)
    currentEl (M w) (Hb.get w) bra ket s.1 n.1 s.2 n.2
  | .source => let s := Hb.blockOffsets.getD w (0, 0); let n := Hb.blockShapes.getD w (0, 0)
    sourceEl (M w) (Hb.get w) bra ket s.1 n.1

/-- Action of block `w`. -/
def blockAct (op : Op R P E) (M : ℕ → ℕ → R) (Hb : BSM R) (ket : ℕ → R) (out : ℕ → R) (w : ℕ) : ℕ → R :=
  match op.kind with
  | .density => let o := getOrbs op.ranges (op.wh.getD w (0, 0)).1; densityAct (M w) ket o.1 o.2 out
  | .current => let s := Hb.blockOffsets.getD w (0, 0); let n := Hb.blockShapes.getD w (0, 0)
    currentAct (M w) (Hb.get w) ket s.1 n.1 s.2 n.2 out
  | .source => let s := Hb.blockOffsets.getD w (0, 0); let n := Hb.blockShapes.getD w (0, 0)
    sourceAct (M w) (Hb.get w) ket s.1 n.1 out

/-- Preparation of the matrices in `_operate`: first the onsites, then the Hamiltonian (not for `Density`). -/
def prepare (junk : ℕ → R) (op : Op R P E) (p : Option P) : Except (OErr E) ((ℕ → ℕ → R) × BSM R) :=
  match onsitePtr junk op p with
  | .error e => .error e
  | .ok M =>
    match op.kind with
    | .density => .ok (M, ⟨[], [], [], 0, fun _ => 0⟩)
    | _ =>
      match hamBlocks junk op p with
      | .error e => .error e
      | .ok b => .ok (M, b)

/-- `self._bound_onsite or self._bound_hamiltonian` -/
def Op.bound (op : Op R P E) : Bool := op.boundOnsite.isSome || op.boundHam.isSome

/-- The array of results of `__call__` before `sum` (operator.pyx l.524-558). -/
def callVec (junk : ℕ → R) (op : Op R P E) (bra : List R) (ket : Option (List R)) (p : Option P) : Except (OErr E) (List R) :=
  if op.bound && p.isSome then .error .value
  else
    let k := ket.getD bra
    if bra.length ≠ totNorbs op.ranges op.nSites then .error .value
    else if k.length ≠ totNorbs op.ranges op.nSites then .error .value
    else
      match prepare junk op p with
      | .error e => .error e
      | .ok (M, Hb) =>
        let res := (List.range op.wh.length).map (blockEl op M Hb (fun i => bra.getD i 0) (fun i => k.getD i 0))
        .ok (if op.check && ket.isNone then res.map CLike.re else res)

/-- `__call__` (operator.pyx l.470-559). -/
def call (junk : ℕ → R) (op : Op R P E) (bra : List R) (ket : Option (List R)) (p : Option P) : Except (OErr E) (List R ⊕ R) :=
  match callVec junk op bra ket p with
  | .error e => .error e
  | .ok v => .ok (if op.sum then .inr v.sum else .inl v)

/-- `act` (operator.pyx l.562-605).  The result is an array of `tot_norbs` elements. -/
def act (junk : ℕ → R) (op : Op R P E) (ket : List R) (p : Option P) : Except (OErr E) (List R) :=
  if op.bound && p.isSome then .error .value
  else if ket.length ≠ totNorbs op.ranges op.nSites then .error .value
  else
    match prepare junk op p with
    | .error e => .error e
    | .ok (M, Hb) =>
      .ok ((List.range (totNorbs op.ranges op.nSites)).map
        ((List.range op.wh.length).foldl (blockAct op M Hb fun i => ket.getD i 0) fun _ => 0))

/-- The onsite part of `bind` (operator.pyx l.634-635). -/
def bindOnsite (junk : ℕ → R) (op : Op R P E) (p : Option P) : Except (OErr E) (Option (BSM R)) :=
  match op.onsite with
  | .mat _ => .ok none
  | .func f => (evalOnsites junk op f p).map some

/-- The Hamiltonian part of `bind` (operator.pyx l.935, l.1063). -/
def bindHam (junk : ℕ → R) (op : Op R P E) (p : Option P) : Except (OErr E) (Option (BSM R)) :=
  match op.kind with
  | .density => .ok none
  | _ => (evalHam junk op p).map some

/-- `bind` (operator.pyx l.608-637, l.925-936, l.1053-1064). -/
def bind (junk : ℕ → R) (op : Op R P E) (p : Option P) : Except (OErr E) (Op R P E) :=
  match bindOnsite junk op p with
  | .error e => .error e
  | .ok bo =>
    match bindHam junk op p with
    | .error e => .error e
    | .ok bh => .ok { op with boundOnsite := bo, boundHam := bh }

/-- The blocks of `tocoo`: offsets, shapes and the flat data (operator.pyx l.840-854). -/
def cooBlocks (junk : ℕ → R) (op : Op R P E) (p : Option P) : Except (OErr E) (List (ℕ × ℕ) × List (ℕ × ℕ) × (ℕ → R)) :=
  match op.onsite with
  | .mat m => .ok ((allOrbs op.wh op.ranges).1, op.wh.map (fun _ => (m.rows, m.cols)), fun k => flat junk m (k % (m.rows * m.cols)))
  | .func f =>
    match op.boundOnsite with
    | some b => .ok (b.blockOffsets, b.blockShapes, b.data)
    | none =>
      match evalOnsites junk op f p with
      | .error e => .error e
      | .ok b => .ok (b.blockOffsets, b.blockShapes, b.data)

/-- The loops of `tocoo` (operator.pyx l.856-863); `k` counts the entries. -/
def cooLoop (data : ℕ → R) : List (ℕ × ℕ) → List (ℕ × ℕ) → ℕ → List ((ℕ × ℕ) × R)
  | o :: os, s :: ss, k =>
    ((List.range (s.1 * s.2)).map fun n => ((o.1 + n / s.2, o.2 + n % s.2), data (k + n))) ++ cooLoop data os ss (k + s.1 * s.2)
  | _, _, _ => []

/-- `Density.tocoo` (operator.pyx l.819-868): the entries of the matrix (duplicates are summed by scipy); scipy raises
`ValueError` if an index is not smaller than the declared shape. -/
def tocoo (junk : ℕ → R) (op : Op R P E) (p : Option P) : Except (OErr E) (List ((ℕ × ℕ) × R)) :=
  if op.boundOnsite.isSome && p.isSome then .error .value
  else
    match cooBlocks junk op p with
    | .error e => .error e
    | .ok (os, ss, data) =>
      let l := cooLoop data os ss 0
      if l.any fun e => decide (e.1.1 ≥ totNorbs op.ranges op.nSites) || decide (e.1.2 ≥ totNorbs op.ranges op.nSites) then .error .value
      else .ok l

end
end Kwant.Oper
