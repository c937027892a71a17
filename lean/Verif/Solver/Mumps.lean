import Mathlib.Data.List.Basic
import Mathlib.Data.Rat.Floor
import Mathlib.Tactic.Linarith

/-!
# Direct solver contexts: `kwant/linalg/mumps.py`, `kwant/solvers/mumps.py`

The MUMPS library is a parameter (`Lib`): what it answers to an analysis and a factorization is arbitrary; if a
factorization reports success, the back substitution solves the linear system (exact arithmetic).  Its other
documented behaviour is modelled: `ICNTL(20)` selects where the right hand side is read, a job that is not preceded by
the jobs it needs reports error `-3` and leaves the right hand side as it is.  Not modelled: statistics, verbosity,
storage formats.
-/

set_option linter.unusedSectionVars false

namespace Kwant.Mumps

/-- Exceptions: `ValueError`, `RuntimeError`, `AttributeError`, `OverflowError`, `MUMPSError`. -/
inductive Err where
  | value
  | runtime
  | attribute
  | overflow
  | mumps (code : ℤ)
deriving DecidableEq, Repr

/-- Data types (`prepare_for_fortran`). -/
inductive DT where
  | s
  | d
  | c
  | z
deriving DecidableEq, Repr

/-- The library and the matrices (`M`), columns of right hand sides (`Col`) and options (`Par`: `ooc`, `pivot_tol`). -/
structure Lib (M Col Par : Type) where
  size : M → ℕ
  square : M → Bool
  dtype : M → DT
  mul : M → Col → Col
  /-- `infog[1]` after the analysis with an ordering -/
  anaErr : M → ℕ → ℤ
  /-- `infog[1]` after the factorization, given the analysed matrix, the matrix, `icntl[14]` -/
  facErr : M → M → ℤ → Par → ℤ
  sol : M → Col → Col
  law : ∀ a0 a m p, 0 ≤ facErr a0 a m p → ∀ c, mul a (sol a c) = c

/-- A right hand side: a vector, or a matrix given by its columns. -/
structure Rhs (Col : Type) where
  rows : ℕ
  cols : List Col
  vector : Bool := false

section
variable {M Col Par : Type} (L : Lib M Col Par)

/-- `zmumps` (_mumps.pyx l.116-216): the assembled matrix, what has been analysed and factored, `icntl[20] = 1`,
`icntl[14]`, the sparse right hand side, `infog[1]`. -/
structure Inst (M Col : Type) where
  mat : Option M
  analysed : Option M
  fac : Option M
  sparse : Bool
  memory : ℤ
  rhs : List Col
  infog : ℤ

/-- A new instance (_mumps.pyx l.126-144); the default of `icntl[14]` is 20. -/
def newInst : Inst M Col := ⟨none, none, none, false, 20, [], 0⟩

/-- `job = 1`. -/
def call1 (ord : ℕ) (I : Inst M Col) : Inst M Col :=
  match I.mat with
  | none => { I with infog := -3, analysed := none, fac := none }
  | some a =>
    { I with infog := L.anaErr a ord, analysed := if 0 ≤ L.anaErr a ord then some a else none, fac := none }

/-- `job = 2`. -/
def call2 (p : Par) (I : Inst M Col) : Inst M Col :=
  match I.analysed, I.mat with
  | some a0, some a =>
    { I with infog := L.facErr a0 a I.memory p, fac := if 0 ≤ L.facErr a0 a I.memory p then some a else none }
  | _, _ => { I with infog := -3, fac := none }

/-- `job = 3`: the contents of the dense right hand side afterwards.  With `icntl[20] = 1` the
sparse right hand side is read. -/
def call3 (b : List Col) (I : Inst M Col) : Inst M Col × List Col :=
  match I.fac with
  | none => ({ I with infog := -3 }, b)
  | some a => ({ I with infog := 0 }, (if I.sparse then I.rhs else b).map (L.sol a))

/-- `MUMPSContext` (mumps.py l.148-191). -/
structure Ctx (M Col : Type) where
  inst : Option (Inst M Col)
  dtype : Option DT
  n : ℕ
  factored : Bool

/-- `MUMPSContext.__init__` (l.178-191); `n` is not defined yet. -/
def newCtx : Ctx M Col := ⟨none, none, 0, false⟩

/-- `analyze` (l.193-251); an unknown ordering is `none`. -/
def analyze (c : Ctx M Col) (a : M) (ord : Option ℕ) : Ctx M Col × Option Err :=
  if L.square a = false then (c, some .value)
  else
    match ord with
    | none => (c, some .value)
    | some o =>
      let go (I : Inst M Col) : Ctx M Col × Option Err :=
        let I' := call1 L o { I with mat := some a }
        (⟨some I', some (L.dtype a), L.size a, false⟩, if I'.infog < 0 then some (.mumps I'.infog) else none)
      if c.dtype ≠ some (L.dtype a) then
        if L.dtype a = .z then go newInst else (c, some .attribute)
      else
        match c.inst with
        | none => (c, some .attribute)
        | some I => go I

/-- The loop of `factor` (l.326-341); `icntl` holds C integers.  No result: it has not ended after
`fuel` rounds. -/
def retry (p : Par) : ℕ → Inst M Col → Option (Inst M Col × Option Err)
  | 0, _ => none
  | fuel + 1, I =>
    let I' := call2 L p I
    if I'.infog < 0 then
      if I'.infog = -8 ∨ I'.infog = -9 then
        if 2 ^ 31 ≤ I'.memory * 2 then some (I', some .overflow)
        else retry p fuel { I' with memory := I'.memory * 2 }
      else some (I', some (.mumps I'.infog))
    else some (I', none)

/-- The second part of `factor` (l.322-345). -/
def factorize (fuel : ℕ) (p : Par) (c : Ctx M Col) : Option (Ctx M Col × Option Err) :=
  match c.inst with
  | none => some (c, some .attribute)
  | some I =>
    match retry L p fuel I with
    | none => none
    | some (I', some e) => some ({ c with inst := some I' }, some e)
    | some (I', none) => some ({ c with inst := some I', factored := true }, none)

/-- `factor` (l.253-345). -/
def factor (fuel : ℕ) (c : Ctx M Col) (a : M) (ord : Option ℕ) (p : Par) (reuse : Bool) :
    Option (Ctx M Col × Option Err) :=
  if L.square a = false then some (c, some .value)
  else
    let fresh :=
      match analyze L c a ord with
      | (c', some e) => some (c', some e)
      | (c', none) => factorize L fuel p c'
    if reuse then
      match c.inst with
      | none => fresh
      | some I =>
        if c.dtype ≠ some (L.dtype a) then some (c, some .value)
        else factorize L fuel p { c with inst := some { I with mat := some a }, n := L.size a }
    else fresh

/-- `assert_fortran_matvec` (fortran_helpers.py l.105-119) of an array in Fortran order. -/
def okArray (b : Rhs Col) : Bool := b.vector || !(b.rows == 1 && b.cols.length == 1)

/-- `solve` (l.347-420). -/
def solve (c : Ctx M Col) (b : Rhs Col) (sparse : Bool) : Ctx M Col × Except Err (List Col) :=
  if c.factored = false then (c, .error .runtime)
  else
    match c.inst with
    | none => (c, .error .attribute)
    | some I =>
      if b.rows ≠ c.n then (c, .error .value)
      else
        if sparse then
          let I1 := { I with rhs := b.cols }
          if okArray b = false then ({ c with inst := some I1 }, .error .value)
          else
            let r := call3 L b.cols { I1 with sparse := true }
            ({ c with inst := some r.1 }, .ok r.2)
        else if okArray b = false then (c, .error .value)
        else
          let r := call3 L b.cols I
          ({ c with inst := some r.1 }, .ok r.2)

/-- What a user can do with a context. -/
inductive Op (M Col Par : Type) where
  | analyze (a : M) (ord : Option ℕ)
  | factor (a : M) (ord : Option ℕ) (p : Par) (reuse : Bool)
  | solve (b : Rhs Col) (sparse : Bool)

/-- The solution, nothing, or an exception. -/
abbrev Out (Col : Type) := Except Err (List Col)

/-- An exception or nothing. -/
def toOut : Option Err → Out Col
  | none => .ok []
  | some e => .error e

/-- One call. -/
def step (fuel : ℕ) (c : Ctx M Col) : Op M Col Par → Option (Ctx M Col × Out Col)
  | .analyze a ord => some ((analyze L c a ord).1, toOut (analyze L c a ord).2)
  | .factor a ord p reuse => (factor L fuel c a ord p reuse).map fun r => (r.1, toOut r.2)
  | .solve b sparse => some (solve L c b sparse)

/-- The contexts after a history of calls with their results. -/
inductive Reaches (fuel : ℕ) : Ctx M Col → List (Op M Col Par × Out Col) → Prop where
  | new : Reaches fuel newCtx []
  | call {c h c' o op} : Reaches fuel c h → step L fuel c op = some (c', o) → Reaches fuel c' (h ++ [(op, o)])

/-! ## Specification -/

/-- The call was refused because of its arguments. -/
def Refused : Out Col → Prop
  | .error .value => True
  | .error .attribute => True
  | _ => False

instance (o : Out Col) : Decidable (Refused o) := by
  unfold Refused
  split <;> infer_instance

/-- The matrix of the last successful factorization, unless a later analysis or factorization was
begun. -/
def current1 (cur : Option M) : Op M Col Par × Out Col → Option M
  | (.analyze _ _, o) => if Refused o then cur else none
  | (.factor a _ _ _, .ok _) => some a
  | (.factor _ _ _ _, .error e) => if Refused (Col := Col) (.error e) then cur else none
  | (.solve _ _, _) => cur

/-- The matrix whose linear system `solve` should solve. -/
def current (h : List (Op M Col Par × Out Col)) : Option M := h.foldl current1 none

/-- What `solve` should give after the history `h`. -/
def Right (h : List (Op M Col Par × Out Col)) (b : Rhs Col) (o : Out Col) : Prop :=
  match current h with
  | none => o = .error .runtime
  | some a =>
    if b.rows ≠ L.size a then o = .error .value
    else ∃ xs, o = .ok xs ∧ xs.map (L.mul a) = b.cols

/-- No factorization that reuses an analysis has failed. -/
def NoReuseFailure (h : List (Op M Col Par × Out Col)) : Prop :=
  ∀ a ord p o, (Op.factor a ord p true, o) ∈ h → ∀ e, o = .error e → Refused o

/-- A right hand side that was passed as a sparse matrix. -/
def HasSparse (h : List (Op M Col Par × Out Col)) : Prop := ∃ b o, (Op.solve b true, o) ∈ h

end
end Kwant.Mumps
