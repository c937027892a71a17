import Mathlib.Data.List.Basic
import Mathlib.Data.Nat.Basic
import Mathlib.Tactic.Linarith
import Mathlib.Tactic.NormNum

/-!
C182: kwant/linalg/lapack.pyx, `prepare_for_lapack` (l.682-754), and kwant/linalg/fortran_helpers.py, `prepare_for_fortran` (l.12-91).

Memory is a sequence of buffers.  An array is a view of a buffer: it has a data type, a number of dimensions, a shape and a map from indices to offsets, so that arrays may
share memory.  (A vector is a view with `cols = 1`.)  Elements are of an arbitrary type `V`; conversion between data types is exact, so only the type changes.
The contiguity flags are predicates on the offsets; as in numpy, strides of directions with one element do not matter.

An argument is `None`, an array, an object from which `np.asanyarray` makes an array of its own (lists, numbers), or an object, such as a `memoryview` or an
`array.array`, from which `np.asanyarray` makes an array that shares its memory.
-/

set_option linter.unusedSectionVars false

namespace Kwant.Fortran

/-- Data types. -/
inductive DType where
  | bool | int | f16 | f32 | f64 | fLong | c64 | c128 | cLong
  deriving DecidableEq

/-- `np.issubdtype(dtype, np.number)`. -/
def DType.isNumber : DType → Bool
  | .bool => false
  | _ => true

/-- `np.iscomplexobj`. -/
def DType.isComplex : DType → Bool
  | .c64 | .c128 | .cLong => true
  | _ => false

/-- The precision in `np.common_type`: integers count as double. -/
def DType.prec : DType → ℕ
  | .bool => 0
  | .int => 2
  | .f16 => 0
  | .f32 | .c64 => 1
  | .f64 | .c128 => 2
  | .fLong | .cLong => 3

/-- `array_type[is_complex][precision]` in `np.common_type`; the first entry for complex numbers is `None`, modelled by a type that is refused afterwards. -/
def typeOf : Bool → ℕ → DType
  | false, 0 => .f16
  | false, 1 => .f32
  | false, 2 => .f64
  | false, _ => .fLong
  | true, 0 => .bool
  | true, 1 => .c64
  | true, 2 => .c128
  | true, _ => .cLong

/-- `np.common_type`. -/
def commonType (l : List DType) : DType := typeOf (l.any DType.isComplex) (l.foldr (fun d p => max d.prec p) 0)

/-- Memory: buffers `0, ..., next - 1` are in use. -/
structure Mem (V : Type) where
  next : ℕ
  at' : ℕ → ℕ → V

/-- Arrays. -/
structure Arr where
  buf : ℕ
  dt : DType
  ndim : ℕ
  rows : ℕ
  cols : ℕ
  off : ℕ → ℕ → ℕ

variable {V : Type}

/-- An element of an array. -/
def Mem.read (m : Mem V) (a : Arr) (i j : ℕ) : V := m.at' a.buf (a.off i j)

/-- `flags["F_CONTIGUOUS"]`. -/
def Arr.fContig (a : Arr) : Prop := ∀ i < a.rows, ∀ j < a.cols, a.off i j = a.off 0 0 + i + j * a.rows

/-- `flags["C_CONTIGUOUS"]`. -/
def Arr.cContig (a : Arr) : Prop := ∀ i < a.rows, ∀ j < a.cols, a.off i j = a.off 0 0 + i * a.cols + j

instance (a : Arr) : Decidable a.fContig := by unfold Arr.fContig; infer_instance
instance (a : Arr) : Decidable a.cContig := by unfold Arr.cContig; infer_instance

/-- A new buffer. -/
def Mem.alloc (m : Mem V) (content : ℕ → V) : Mem V := ⟨m.next + 1, fun b => if b = m.next then content else m.at' b⟩

/-- A copy in Fortran order: `np.asfortranarray(a, dtype)` of an array that is not Fortran contiguous, and `a.astype(dtype)` of one that is. -/
def copyF (m : Mem V) (a : Arr) (dt : DType) : Mem V × Arr :=
  (m.alloc fun k => m.read a (k % a.rows) (k / a.rows), ⟨m.next, dt, a.ndim, a.rows, a.cols, fun i j => i + j * a.rows⟩)

/-- A copy in C order: `a.copy()`. -/
def copyC (m : Mem V) (a : Arr) (dt : DType) : Mem V × Arr :=
  (m.alloc fun k => m.read a (k / a.cols) (k % a.cols), ⟨m.next, dt, a.ndim, a.rows, a.cols, fun i j => i * a.cols + j⟩)

/-- `np.asfortranarray(a)`: a copy is made only if it is necessary. -/
def asFortran (m : Mem V) (a : Arr) : Mem V × Arr := if a.fContig then (m, a) else copyF m a a.dt

/-- Arguments. -/
inductive Arg (V : Type) where
  | none
  | array (a : Arr)
  | plain (dt : DType) (ndim rows cols : ℕ) (val : ℕ → ℕ → V)
  | shared (a : Arr)

/-- Exceptions. -/
inductive AErr where
  | notNumeric | badType | badDim
  deriving DecidableEq

/-- `arr = np.asanyarray(arg)`, and `arr is not arg` (lapack.pyx l.706-711). -/
def asAnyArray (m : Mem V) : Arg V → Mem V × Option (Arr × Bool)
  | .none => (m, Option.none)
  | .array a => (m, some (a, false))
  | .plain dt nd r c val => (m.alloc fun k => val (k / c) (k % c), some (⟨m.next, dt, nd, r, c, fun i j => i * c + j⟩, true))
  | .shared a => (m, some (a, true))

/-- The first loop (l.704-713): `mats[i] = (arr, arr is not args[i] or overwrite)`. -/
def collect (overwrite : Bool) (m : Mem V) : List (Arg V) → Except AErr (Mem V × List (Option (Arr × Bool)))
  | [] => .ok (m, [])
  | x :: l =>
    let p := asAnyArray m x
    match p.2 with
    | Option.none => match collect overwrite p.1 l with
      | .error e => .error e
      | .ok q => .ok (q.1, Option.none :: q.2)
    | some (a, isNew) =>
      if a.dt.isNumber = false then .error .notNumeric
      else match collect overwrite p.1 l with
        | .error e => .error e
        | .ok q => .ok (q.1, some (a, isNew || overwrite) :: q.2)

/-- The body of the second loop (l.724-744) for an array. -/
def convert (dtype : DType) (m : Mem V) (a : Arr) (ovwrt : Bool) : Except AErr (Mem V × Arr) :=
  if a.ndim = 2 then
    if ¬ a.fContig then .ok (copyF m a dtype)
    else if a.dt ≠ dtype then .ok (copyF m a dtype)
    else if ovwrt = false then let p := copyC m a a.dt; .ok (asFortran p.1 p.2)
    else .ok (m, a)
  else if a.ndim = 1 then
    if ¬ a.cContig then .ok (copyC m a dtype)
    else if a.dt ≠ dtype then .ok (copyC m a dtype)
    else if ovwrt = false then let p := copyC m a a.dt; .ok (asFortran p.1 p.2)
    else .ok (m, a)
  else .error .badDim

/-- The second loop (l.723-746). -/
def convertAll (dtype : DType) (m : Mem V) : List (Option (Arr × Bool)) → Except AErr (Mem V × List (Option Arr))
  | [] => .ok (m, [])
  | Option.none :: l => match convertAll dtype m l with
    | .error e => .error e
    | .ok q => .ok (q.1, Option.none :: q.2)
  | some (a, ov) :: l => match convert dtype m a ov with
    | .error e => .error e
    | .ok p => match convertAll dtype p.1 l with
      | .error e => .error e
      | .ok q => .ok (q.1, some p.2 :: q.2)

/-- The four types of LAPACK (l.720-721; in `prepare_for_fortran` l.56-65 they are 's', 'd', 'c', 'z'). -/
def lapackType : DType → Option Char
  | .f32 => some 's'
  | .f64 => some 'd'
  | .c64 => some 'c'
  | .c128 => some 'z'
  | _ => none

/-- `prepare_for_fortran` (l.12-91); `prepare_for_lapack` is the same without the character. -/
def prepare (overwrite : Bool) (m : Mem V) (args : List (Arg V)) : Except AErr (Mem V × Char × List (Option Arr)) :=
  match collect overwrite m args with
  | .error e => .error e
  | .ok p =>
    let dtype := commonType (p.2.filterMap fun x => x.map fun y => y.1.dt)
    match lapackType dtype with
    | none => .error .badType
    | some ch => match convertAll dtype p.1 p.2 with
      | .error e => .error e
      | .ok q => .ok (q.1, ch, q.2)

/-! ### Specification -/

/-- The memory of an argument is in use before the call. -/
def Arg.Valid (m : Mem V) : Arg V → Prop
  | .array a | .shared a => a.buf < m.next
  | _ => True

/-- A vector has one column. -/
def Arg.Proper : Arg V → Prop
  | .array a | .shared a => a.ndim = 1 → a.cols = 1
  | .plain _ nd _ c _ => nd = 1 → c = 1
  | .none => True

/-- The data type, number of dimensions, shape and elements of an argument. -/
def Arg.Is (m : Mem V) (dt : DType) (ndim rows cols : ℕ) (val : ℕ → ℕ → V) : Arg V → Prop
  | .none => False
  | .array a | .shared a => a.dt = dt ∧ a.ndim = ndim ∧ a.rows = rows ∧ a.cols = cols ∧ ∀ i < rows, ∀ j < cols, m.read a i j = val i j
  | .plain dt' nd r c v => dt' = dt ∧ nd = ndim ∧ r = rows ∧ c = cols ∧ ∀ i < rows, ∀ j < cols, v i j = val i j

/-- Only the buffers of the results have changed since the call: what any LAPACK or MUMPS function may do with the results. -/
def OnlyResults (m m' : Mem V) (res : List (Option Arr)) : Prop := ∀ b, (∀ a, some a ∈ res → a.buf ≠ b) → m'.at' b = m.at' b

/-- The argument is an object that shares its memory but is not an array. -/
def Arg.isShared : Arg V → Bool
  | .shared _ => true
  | _ => false

/-- The data types of the arguments that are not `None`. -/
def Arg.dtype? : Arg V → Option DType
  | .none => Option.none
  | .array a | .shared a => some a.dt
  | .plain dt _ _ _ _ => some dt

/-- The number of dimensions of the arguments that are not `None`. -/
def Arg.ndim? : Arg V → Option ℕ
  | .none => Option.none
  | .array a | .shared a => some a.ndim
  | .plain _ nd _ _ _ => some nd

end Kwant.Fortran
