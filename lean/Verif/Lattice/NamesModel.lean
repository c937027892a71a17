import Mathlib.Data.List.Basic
import Mathlib.Data.List.Lex
import Mathlib.Data.Char
import Mathlib.Data.Rat.Defs
import Mathlib.Algebra.Order.Ring.Rat
import Mathlib.Data.Nat.Digits.Defs

/-!
C179, C180: identity of site families.  kwant/builder.py, `SiteFamily` (l.103-203) and `Site` (l.37-100); kwant/lattice.py, `short_array_repr` (l.389-391),
`Monatomic.__init__` (l.425-468), `Monatomic.pos`, `_check_prim_vecs` (l.54-65), `Polyatomic.__init__` (l.95-126).

Two families are compared, hashed and ordered by a text, `canonical_repr`.  The text is modelled character by character.

Simplifications: floats are a type `F` of finite floats with the contract `PyRepr` about Python's `repr`.  `np.linalg.matrix_rank` is an arbitrary test `rankOk`.
Positions are computed exactly.  Names are strings.  `norbs` is `None`, an integer, a float or a bool.
-/

set_option linter.unusedSectionVars false

namespace Kwant.Fam

/-- Texts. -/
abbrev Str := List Char

/-- Python's `repr` of floats and strings (language contract): texts of different objects differ, and a finite float is
written without brackets, commas and line breaks, starts with a digit or a minus sign, and has a decimal point or an exponent.
`val` is the number a float stands for; only zero is written in two ways, `0.0` and `-0.0`. -/
structure PyRepr (F : Type) where
  float : F → Str
  str : Str → Str
  val : F → ℚ
  zero : F
  negZero : F
  float_inj : ∀ x y, float x = float y → x = y
  float_chars : ∀ x, ∀ c ∈ float x, c ≠ ',' ∧ c ≠ ']' ∧ c ≠ '[' ∧ c ≠ '\n'
  float_head : ∀ x, ∃ c s, float x = c :: s ∧ (c.isDigit ∨ c = '-')
  float_mark : ∀ x, '.' ∈ float x ∨ 'e' ∈ float x
  str_inj : ∀ s t, str s = str t → s = t
  val_zero : val zero = 0
  val_negZero : val negZero = 0
  val_inj : ∀ x y, val x = val y → x = y ∨ (x = zero ∧ y = negZero) ∨ (x = negZero ∧ y = zero)

/-- `sep.join(l)`. -/
def join (sep : Str) : List Str → Str
  | [] => []
  | [a] => a
  | a :: b :: l => a ++ (sep ++ join sep (b :: l))

/-- `s.split('\n')`: never empty. -/
def splitLines : Str → List Str
  | [] => [[]]
  | c :: s =>
    if c = '\n' then [] :: splitLines s
    else match splitLines s with
      | [] => [[c]]
      | l :: ls => (c :: l) :: ls

/-- `s.lstrip()`. -/
def lstrip (s : Str) : Str := s.dropWhile fun c => c = ' '

/-- `full[6:-1]`. -/
def slice (s : Str) : Str := (s.drop 6).dropLast

/-- `short_array_repr` (l.389-391): `full = ' '.join([i.lstrip() for i in repr(array).split('\n')]); return full[6 : -1]`. -/
def shortArrayRepr (r : Str) : Str := slice (join [' '] ((splitLines r).map lstrip))

variable {F : Type} (P : PyRepr F)

/-- The numbers of one row, in brackets, as in the `repr` of an array. -/
def row (v : List F) : Str := '[' :: (join [',', ' '] (v.map P.float) ++ [']'])

/-- `repr` of a one-dimensional tinyarray: `array([1.0, 2.0])`. -/
def reprVec (v : List F) : Str := "array(".toList ++ (row P v ++ [')'])

/-- The lines of the `repr` of a two-dimensional tinyarray; the rows after the first are indented by `ind` blanks. -/
def rowLines (ind : ℕ) : Str → List (List F) → List Str
  | _, [] => []
  | pre, [v] => [pre ++ (row P v ++ [']', ')'])]
  | pre, v :: w :: l => (pre ++ (row P v ++ [','])) :: rowLines ind (List.replicate ind ' ') (w :: l)

/-- `repr` of a two-dimensional tinyarray: `array([[1.0, 0.0],⏎       [0.0, 1.0]])`. -/
def reprMat (ind : ℕ) (m : List (List F)) : Str := join ['\n'] (rowLines P ind "array([".toList m)

/-- The argument `norbs`. -/
inductive NArg (F : Type) where
  | none
  | int (n : ℤ)
  | float (x : F)
  | bool (b : Bool)

/-- `str(i)` of a natural number. -/
def strNat (n : ℕ) : Str := Nat.toDigits 10 n

/-- `repr(n)` of an integer. -/
def reprInt : ℤ → Str
  | .ofNat n => strNat n
  | .negSucc n => '-' :: strNat (n + 1)

/-- `repr(norbs)`. -/
def NArg.repr : NArg F → Str
  | .none => "None".toList
  | .int n => reprInt n
  | .float x => P.float x
  | .bool b => if b then "True".toList else "False".toList

/-- The number that `norbs` stands for. -/
def NArg.num : NArg F → Option ℚ
  | .none => Option.none
  | .int n => some n
  | .float x => some (P.val x)
  | .bool b => some (if b then 1 else 0)

/-- Exceptions. -/
inductive FErr where
  | notMatrix | tooMany | dependent | offsetShape | norbs | basisShape | norbsLength
  deriving DecidableEq

/-- The check and conversion of `norbs` in `SiteFamily.__init__` (builder.py l.146-151): `if int(norbs) != norbs or norbs <= 0: raise ValueError`. -/
def checkNorbs (n : NArg F) : Except FErr (Option ℕ) :=
  match n.num P with
  | none => .ok none
  | some q => if q.den ≠ 1 ∨ q ≤ 0 then .error .norbs else .ok (some q.num.toNat)

/-- A site family (`SiteFamily.__init__`, builder.py l.139-151, with the attributes set by `Monatomic.__init__`, l.460-475). -/
structure Family (F : Type) where
  canonicalRepr : Str
  name : Str
  norbs : Option ℕ
  primVecs : List (List F)
  offset : List F

/-- The arguments of `Monatomic`; `cl` is `self.__module__ + '.' + self.__class__.__name__`. -/
structure Args (F : Type) where
  cl : Str
  primVecs : List (List F)
  offset : Option (List F)
  name : Option Str
  norbs : NArg F

/-- `_check_prim_vecs` (l.54-65).  An array has two dimensions if it is not empty and its rows have the same, non-zero length. -/
def checkPrimVecs (rankOk : List (List F) → Bool) (m : List (List F)) : Except FErr ℕ :=
  match m with
  | [] => .error .notMatrix
  | v :: vs =>
    if v = [] ∨ ∃ w ∈ vs, w.length ≠ v.length then .error .notMatrix
    else if m.length > v.length then .error .tooMany
    else if rankOk m = false then .error .dependent
    else .ok v.length

/-- `'{0}({1}, {2}, {3}, {4})'.format(cl, short_array_repr(prim_vecs), short_array_repr(offset), repr(name), repr(norbs))` (l.443-447). -/
def canonical (ind : ℕ) (cl : Str) (m : List (List F)) (o : List F) (name : Str) (norbs : NArg F) : Str :=
  cl ++ ('(' :: (shortArrayRepr (reprMat P ind m) ++ (',' :: ' ' :: (shortArrayRepr (reprVec P o) ++ (',' :: ' ' ::
    (P.str name ++ (',' :: ' ' :: (norbs.repr P ++ [')']))))))))

/-- `offset`, by default `ta.zeros(dim)` (l.436-437). -/
def theOffset (dim : ℕ) (o : Option (List F)) : List F := o.getD (List.replicate dim P.zero)

/-- `Monatomic.__init__` (l.425-468). -/
def monatomic (rankOk : List (List F) → Bool) (ind : ℕ) (a : Args F) : Except FErr (Family F) :=
  match checkPrimVecs rankOk a.primVecs with
  | .error e => .error e
  | .ok dim =>
    let name := a.name.getD []
    let o := theOffset P dim a.offset
    if o.length ≠ dim then .error .offsetShape
    else match checkNorbs P a.norbs with
      | .error e => .error e
      | .ok n => .ok { canonicalRepr := canonical P ind a.cl a.primVecs o name a.norbs, name := name, norbs := n, primVecs := a.primVecs, offset := o }

/-- `SiteFamily.__eq__` (builder.py l.169-173). -/
def Family.eq (f g : Family F) : Bool := f.canonicalRepr == g.canonicalRepr

/-- `SiteFamily.__ne__` (builder.py l.175-179). -/
def Family.ne (f g : Family F) : Bool := f.canonicalRepr != g.canonicalRepr

/-- `SiteFamily.__lt__` (builder.py l.181-184): Python compares texts lexicographically by code points. -/
def Family.lt (f g : Family F) : Bool := decide (f.canonicalRepr < g.canonicalRepr)

/-- `__le__`, `__gt__` and `__ge__` as they are made by `functools.total_ordering` (builder.py l.103) from `__lt__`, `__eq__` and `__ne__`. -/
def Family.le (f g : Family F) : Bool := f.lt g || f.eq g
def Family.gt (f g : Family F) : Bool := !(f.lt g) && f.ne g
def Family.ge (f g : Family F) : Bool := !(f.lt g)

/-- `SiteFamily.__hash__` (builder.py l.166-167, l.141): `hash(canonical_repr)`, for an arbitrary hash of texts. -/
def Family.hash (h : Str → ℤ) (f : Family F) : ℤ := h f.canonicalRepr

/-- `ta.dot(tag, vecs)` for one component: the sum of `tag[i] * vecs[i][j]`. -/
def dotAt (j : ℕ) : List ℤ → List (List F) → ℚ
  | t :: ts, v :: vs => t * ((v.map P.val).getD j 0) + dotAt j ts vs
  | _, _ => 0

/-- `Monatomic.pos` (l.500-502): `ta.dot(tag, self._prim_vecs) + self.offset`. -/
def Family.pos (f : Family F) (tag : List ℤ) (j : ℕ) : ℚ := dotAt P j tag f.primVecs + (f.offset.map P.val).getD j 0

/-- A site (builder.py l.37-84): the tuple of a family and a tag. -/
structure Site (F : Type) where
  family : Family F
  tag : List ℤ

/-- Comparison of sites is comparison of tuples: `==`. -/
def Site.eq (s t : Site F) : Bool := s.family.eq t.family && s.tag == t.tag

/-- Comparison of sites is comparison of tuples: `<` looks at the tags if the families are equal.  Tags are compared lexicographically. -/
def Site.lt (s t : Site F) : Bool := if s.family.eq t.family then decide (s.tag < t.tag) else s.family.lt t.family

/-- The argument `name` of `Polyatomic`. -/
inductive NameArg where
  | none
  | str (s : Str)
  | seq (l : List Str)

/-- The argument `norbs` of `Polyatomic`: `list(norbs)` raises a `TypeError` unless it is a sequence. -/
inductive NorbsArg (F : Type) where
  | single (n : NArg F)
  | seq (l : List (NArg F))

/-- The names of the sublattices (l.100-103). -/
def subNames (n : ℕ) : NameArg → List Str
  | .none => (List.range n).map fun i => [] ++ strNat i
  | .str s => (List.range n).map fun i => s ++ strNat i
  | .seq l => l

/-- The numbers of orbitals of the sublattices (l.112-118). -/
def subNorbs (n : ℕ) : NorbsArg F → Except FErr (List (NArg F))
  | .single x => .ok (List.replicate n x)
  | .seq l => if l.length ≠ n then .error .norbsLength else .ok l

/-- The list of sublattices (l.120-121): `[Monatomic(prim_vecs, offset, sname, norb) for offset, sname, norb in zip(basis, name, norbs)]`. -/
def sublattices (rankOk : List (List F) → Bool) (ind : ℕ) (cl : Str) (m : List (List F)) :
    List (List F) → List Str → List (NArg F) → Except FErr (List (Family F))
  | o :: os, s :: ss, n :: ns =>
    match monatomic P rankOk ind ⟨cl, m, some o, some s, n⟩ with
    | .error e => .error e
    | .ok f => match sublattices rankOk ind cl m os ss ns with
      | .error e => .error e
      | .ok fs => .ok (f :: fs)
  | _, _, _ => .ok []

/-- `Polyatomic.__init__` (l.95-121); the result is `self.sublattices`. -/
def polyatomic (rankOk : List (List F) → Bool) (ind : ℕ) (cl : Str) (m basis : List (List F)) (name : NameArg) (norbs : NorbsArg F) :
    Except FErr (List (Family F)) :=
  match checkPrimVecs rankOk m with
  | .error e => .error e
  | .ok dim =>
    if basis = [] ∨ ∃ b ∈ basis, b.length ≠ dim then .error .basisShape
    else match subNorbs basis.length norbs with
      | .error e => .error e
      | .ok ns => sublattices P rankOk ind cl m basis (subNames basis.length name) ns

end Kwant.Fam
