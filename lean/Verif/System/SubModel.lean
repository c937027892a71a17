import Mathlib.Algebra.Star.Basic
import Verif.Final.Lemmas

/-!
Model of `hamiltonian_submatrix` and of the four helper functions (_system.pyx l.24-340).

Simplifications
* A low-level system with fixed arguments: number of nodes, `graph.out_neighbors`, and `hamiltonian(i, j)` (pure; it
  may raise).  `ta.matrix(value, complex)` is part of `ham`: values are matrices over `K`.
* C integers are natural numbers; the sites in `to_sites`, `from_sites` are integers.
* Arrays are functions; `data[k] = ...; k += 1` is appending to a list (`cap` is the size of the allocated array,
  see `C93_no_overflow`).
* `to_sites is from_sites` is modelled by equality of the lists (recomputation yields the same arrays).
-/

namespace Kwant.System
open Kwant Kwant.Assoc Kwant.Final

/-- A matrix (`tinyarray` or `memoryview`). -/
structure Mat (K : Type) where
  rows : ℕ
  cols : ℕ
  val : ℕ → ℕ → K

/-- `mat.transpose().conjugate()` -/
def Mat.dagger {K : Type} [Star K] (h : Mat K) : Mat K := ⟨h.cols, h.rows, fun i j => star (h.val j i)⟩

/-- A low-level system. -/
structure LSys (K ε : Type) where
  n : ℕ
  nbrs : ℕ → List ℕ
  ham : ℕ → ℕ → Except ε (Mat K)

inductive SErr (ε : Type) where
  | index
  | value (fs ts : ℕ)
  | user (e : ε)

section
variable {K ε : Type} [Zero K] [Star K] [DecidableEq K] (sys : LSys K ε)

/-- A call of `ham`. -/
def LSys.call (i j : ℕ) : Except (SErr ε) (Mat K) :=
  match sys.ham i j with
  | .ok h => .ok h
  | .error e => .error (.user e)

/-- The onsite matrices of given sites (_system.pyx l.280-292, l.300-316). -/
def LSys.diagOf (sites : List ℤ) : Except (SErr ε) (List (Mat K)) :=
  mapE (fun s : ℤ => if s < 0 ∨ s ≥ sys.n then .error .index else sys.call s.toNat s.toNat) sites

/-- `norb`s. -/
def norbOf (diag : List (Mat K)) : List ℕ := diag.map Mat.rows

/-- Cumulative sums: `off[k]` (_system.pyx l.293-295, l.317-319). -/
def off (norb : List ℕ) (k : ℕ) : ℕ := (norb.take k).sum

/-- Loop with an accumulator that stops at the first exception. -/
def foldE {α β ε' : Type} (f : β → α → Except ε' β) : β → List α → Except ε' β
  | b, [] => .ok b
  | b, a :: l =>
    match f b a with
    | .error e => .error e
    | .ok b' => foldE f b' l

/-- `h_sub_view[r0 : r1, c0 : c1] = h` -/
def writeBlock (M : ℕ → ℕ → K) (r0 r1 c0 c1 : ℕ) (h : Mat K) : ℕ → ℕ → K := fun r c =>
  if r0 ≤ r ∧ r < r1 ∧ c0 ≤ c ∧ c < c1 then h.val (r - r0) (c - c0) else M r c

/-- `for i in range(h.shape[0]): for j in range(h.shape[1]): ...` with the nonzero entries (_system.pyx l.62-69). -/
def blockEntries (h : Mat K) (r0 c0 : ℕ) : List ((ℕ × ℕ) × K) :=
  (List.range h.rows).flatMap fun i => (List.range h.cols).flatMap fun j =>
    if h.val i j ≠ 0 then [((i + r0, j + c0), h.val i j)] else []

/-- The same with the Hermitian conjugate (_system.pyx l.132-140). -/
def blockEntries2 (h : Mat K) (r0 c0 : ℕ) : List ((ℕ × ℕ) × K) :=
  (List.range h.rows).flatMap fun i => (List.range h.cols).flatMap fun j =>
    if h.val i j ≠ 0 then [((i + r0, j + c0), h.val i j), ((j + c0, i + r0), star (h.val i j))] else []

/-- Arguments shared by the helper functions. -/
structure Bufs (K : Type) where
  diag : List (Mat K)
  toNorb : List ℕ
  fromNorb : List ℕ

variable (b : Bufs K)

/-- The check of an onsite matrix (_system.pyx l.59-60); `n_fs` is its number. -/
def squareOK (h : Mat K) (nfs : ℕ) : Bool := h.rows == h.cols && h.cols == b.fromNorb.getD nfs 0

/-- The check of a hopping matrix (_system.pyx l.76-77). -/
def shapeOK (h : Mat K) (nts nfs : ℕ) : Bool := h.rows == b.toNorb.getD nts 0 && h.cols == b.fromNorb.getD nfs 0

/-- The diagonal part of the loop body of `make_dense` (_system.pyx l.166-172). -/
def denseDiag (table : List (ℕ × ℕ)) (fs nfs : ℕ) (M : ℕ → ℕ → K) : Except (SErr ε) (ℕ → ℕ → K) :=
  match Assoc.get table fs with
  | none => .ok M
  | some nts =>
    match b.diag[nfs]? with
    | none => .error .index
    | some h =>
      if squareOK b h nfs then
        .ok (writeBlock M (off b.toNorb nts) (off b.toNorb (nts + 1)) (off b.fromNorb nfs) (off b.fromNorb (nfs + 1)) h)
      else .error (.value fs fs)

/-- One neighbor in `make_dense` (_system.pyx l.174-184). -/
def denseNbr (table : List (ℕ × ℕ)) (fs nfs : ℕ) (M : ℕ → ℕ → K) (ts : ℕ) : Except (SErr ε) (ℕ → ℕ → K) :=
  match Assoc.get table ts with
  | none => .ok M
  | some nts =>
    match sys.call ts fs with
    | .error e => .error e
    | .ok h =>
      if shapeOK b h nts nfs then
        .ok (writeBlock M (off b.toNorb nts) (off b.toNorb (nts + 1)) (off b.fromNorb nfs) (off b.fromNorb (nfs + 1)) h)
      else .error (.value fs ts)

/-- `make_dense` (_system.pyx l.147-185). -/
def makeDense (fromSites : List ℕ) (table : List (ℕ × ℕ)) : Except (SErr ε) (ℕ → ℕ → K) :=
  foldE (fun M p =>
    match denseDiag b table p.1 p.2 M with
    | .error e => .error e
    | .ok M => foldE (denseNbr sys b table p.1 p.2) M (sys.nbrs p.1)) (fun _ _ => 0) fromSites.zipIdx

/-- The diagonal part of the loop body of `make_sparse` (_system.pyx l.55-69). -/
def sparseDiag (table : List (ℕ × ℕ)) (fs nfs : ℕ) (l : List ((ℕ × ℕ) × K)) : Except (SErr ε) (List ((ℕ × ℕ) × K)) :=
  match Assoc.get table fs with
  | none => .ok l
  | some nts =>
    match b.diag[nfs]? with
    | none => .error .index
    | some h =>
      if squareOK b h nfs then .ok (l ++ blockEntries h (off b.toNorb nts) (off b.fromNorb nfs))
      else .error (.value fs fs)

/-- One neighbor in `make_sparse` (_system.pyx l.71-85). -/
def sparseNbr (table : List (ℕ × ℕ)) (fs nfs : ℕ) (l : List ((ℕ × ℕ) × K)) (ts : ℕ) :
    Except (SErr ε) (List ((ℕ × ℕ) × K)) :=
  match Assoc.get table ts with
  | none => .ok l
  | some nts =>
    match sys.call ts fs with
    | .error e => .error e
    | .ok h =>
      if shapeOK b h nts nfs then .ok (l ++ blockEntries h (off b.toNorb nts) (off b.fromNorb nfs))
      else .error (.value fs ts)

/-- `make_sparse` (_system.pyx l.24-88): the entries `data[:k]`, `rows_cols[:, :k]`. -/
def makeSparse (fromSites : List ℕ) (table : List (ℕ × ℕ)) : Except (SErr ε) (List ((ℕ × ℕ) × K)) :=
  foldE (fun l p =>
    match sparseDiag b table p.1 p.2 l with
    | .error e => .error e
    | .ok l => foldE (sparseNbr sys b table p.1 p.2) l (sys.nbrs p.1)) [] fromSites.zipIdx

/-- Size of the arrays allocated by `make_sparse` (_system.pyx l.39-49). -/
def sparseCap (fromSites : List ℕ) (table : List (ℕ × ℕ)) : ℕ :=
  (fromSites.zipIdx.map fun p =>
    (if p.1 ∈ keys table then b.fromNorb.getD p.2 0 * b.fromNorb.getD p.2 0 else 0) +
    ((sys.nbrs p.1).map fun ts =>
      match Assoc.get table ts with
      | none => 0
      | some nts => b.toNorb.getD nts 0 * b.fromNorb.getD p.2 0).sum).sum

/-- The onsite part of `make_dense_full` (_system.pyx l.203-207). -/
def denseFullDiag (fs : ℕ) (M : ℕ → ℕ → K) : Except (SErr ε) (ℕ → ℕ → K) :=
  match b.diag[fs]? with
  | none => .error .index
  | some h =>
    if squareOK b h fs then
      .ok (writeBlock M (off b.toNorb fs) (off b.toNorb (fs + 1)) (off b.fromNorb fs) (off b.fromNorb (fs + 1)) h)
    else .error (.value fs fs)

/-- One neighbor in `make_dense_full` (_system.pyx l.209-221). -/
def denseFullNbr (fs : ℕ) (M : ℕ → ℕ → K) (ts : ℕ) : Except (SErr ε) (ℕ → ℕ → K) :=
  if ts < fs then .ok M else
  match sys.call ts fs with
  | .error e => .error e
  | .ok h =>
    if shapeOK b h ts fs then
      .ok (writeBlock
        (writeBlock M (off b.toNorb ts) (off b.toNorb (ts + 1)) (off b.fromNorb fs) (off b.fromNorb (fs + 1)) h)
        (off b.fromNorb fs) (off b.fromNorb (fs + 1)) (off b.toNorb ts) (off b.toNorb (ts + 1)) h.dagger)
    else .error (.value fs ts)

/-- `make_dense_full` (_system.pyx l.188-222). -/
def makeDenseFull : Except (SErr ε) (ℕ → ℕ → K) :=
  foldE (fun M fs =>
    match denseFullDiag b fs M with
    | .error e => .error e
    | .ok M => foldE (denseFullNbr sys b fs) M (sys.nbrs fs)) (fun _ _ => 0) (List.range sys.n)

/-- The onsite part of `make_sparse_full` (_system.pyx l.116-127). -/
def sparseFullDiag (fs : ℕ) (l : List ((ℕ × ℕ) × K)) : Except (SErr ε) (List ((ℕ × ℕ) × K)) :=
  match b.diag[fs]? with
  | none => .error .index
  | some h =>
    if squareOK b h fs then .ok (l ++ blockEntries h (off b.toNorb fs) (off b.fromNorb fs))
    else .error (.value fs fs)

/-- One neighbor in `make_sparse_full` (_system.pyx l.129-143). -/
def sparseFullNbr (fs : ℕ) (l : List ((ℕ × ℕ) × K)) (ts : ℕ) : Except (SErr ε) (List ((ℕ × ℕ) × K)) :=
  if ts < fs then .ok l else
  match sys.call ts fs with
  | .error e => .error e
  | .ok h =>
    if shapeOK b h ts fs then .ok (l ++ blockEntries2 h (off b.toNorb ts) (off b.fromNorb fs))
    else .error (.value fs ts)

/-- `make_sparse_full` (_system.pyx l.91-145). -/
def makeSparseFull : Except (SErr ε) (List ((ℕ × ℕ) × K)) :=
  foldE (fun l fs =>
    match sparseFullDiag b fs l with
    | .error e => .error e
    | .ok l => foldE (sparseFullNbr sys b fs) l (sys.nbrs fs)) [] (List.range sys.n)

/-- Size of the arrays allocated by `make_sparse_full` (_system.pyx l.103-112). -/
def sparseFullCap : ℕ :=
  ((List.range sys.n).map fun fs =>
    b.fromNorb.getD fs 0 * b.fromNorb.getD fs 0 +
    ((sys.nbrs fs).map fun ts => if fs < ts then 2 * b.toNorb.getD ts 0 * b.fromNorb.getD fs 0 else 0).sum).sum

/-- `to_sites`/`from_sites` with the default (_system.pyx l.280, l.300). -/
def sitesOr (sites : Option (List ℤ)) : List ℤ := sites.getD ((List.range sys.n).map Int.ofNat)

/-- The preparation of the arrays (_system.pyx l.274-319). -/
def prepare (tos froms : Option (List ℤ)) : Except (SErr ε) (Bufs K) :=
  match sys.diagOf (sitesOr sys froms) with
  | .error e => .error e
  | .ok diag =>
    if tos = froms then .ok ⟨diag, norbOf diag, norbOf diag⟩ else
    match sys.diagOf (sitesOr sys tos) with
    | .error e => .error e
    | .ok tdiag => .ok ⟨diag, norbOf tdiag, norbOf diag⟩

/-- `n_by_to_site` (_system.pyx l.326-331). -/
def toTable (tos : Option (List ℤ)) : List (ℕ × ℕ) := idTable ((sitesOr sys tos).map Int.toNat)

/-- A dense matrix with its shape. -/
abbrev Dense (K : Type) := (ℕ × ℕ) × (ℕ → ℕ → K)
/-- A matrix in coordinate format with its shape. -/
abbrev Coo (K : Type) := (ℕ × ℕ) × List ((ℕ × ℕ) × K)

/-- `hamiltonian_submatrix(..., sparse=False, return_norb=True)` (_system.pyx l.225-340). -/
def submatrixDense (tos froms : Option (List ℤ)) : Except (SErr ε) (Dense K × List ℕ × List ℕ) :=
  match prepare sys tos froms with
  | .error e => .error e
  | .ok b =>
    match (if tos = none ∧ froms = none then makeDenseFull sys b
           else makeDense sys b ((sitesOr sys froms).map Int.toNat) (toTable sys tos)) with
    | .error e => .error e
    | .ok M => .ok (((b.toNorb.sum, b.fromNorb.sum), M), b.toNorb, b.fromNorb)

/-- `hamiltonian_submatrix(..., sparse=True, return_norb=True)` (_system.pyx l.225-340). -/
def submatrixSparse (tos froms : Option (List ℤ)) : Except (SErr ε) (Coo K × List ℕ × List ℕ) :=
  match prepare sys tos froms with
  | .error e => .error e
  | .ok b =>
    match (if tos = none ∧ froms = none then makeSparseFull sys b
           else makeSparse sys b ((sitesOr sys froms).map Int.toNat) (toTable sys tos)) with
    | .error e => .error e
    | .ok M => .ok (((b.toNorb.sum, b.fromNorb.sum), M), b.toNorb, b.fromNorb)

end
end Kwant.System
