import Mathlib.Algebra.Group.Pi.Basic
import Mathlib.LinearAlgebra.Matrix.Adjugate

/-!
Model of `kwant/builder.py` classes `Symmetry` (l.241-323), `NoSymmetry` (l.326-366) and of
`kwant/lattice.py` class `TranslationalSymmetry` (l.509-733).

Simplifications
* Group elements are vectors of unbounded integers, tags are integer vectors of the dimension of their
  lattice; calls with wrong types or lengths (which raise) are not representable.
* The numerical part of `add_site_family` (pinv, svd, rounding) is represented by its result: an integer
  matrix `m` whose first columns are the periods in the basis of the lattice.  The code's
  `round(det(m))` is `m.det` and `round(det_m * inv(m))` is the adjugate: exact arithmetic.
* The lazily filled cache `site_family_data` is a total function of the family.
-/

namespace Kwant

/-- The interface `Symmetry` (builder.py l.241-323): a group acting on sites, and `which`. -/
structure Symmetry (S G : Type) where
  /-- `act(element, a)` -/
  act : G → S → S
  /-- `which(site)` -/
  which : S → G

namespace Symmetry
variable {S G : Type} [AddCommGroup G] [DecidableEq G] (sym : Symmetry S G)

/-- `act(element, a, b)`: act on a hopping (lattice.py l.693-721: both ends are translated by the same
element, with the data of their respective families). -/
def actHop (g : G) (a b : S) : S × S := (sym.act g a, sym.act g b)

/-- `Symmetry.to_fd(a)` (builder.py l.291-300). -/
def toFd (a : S) : S := sym.act (-sym.which a) a

/-- `Symmetry.to_fd(a, b)` (builder.py l.291-300). -/
def toFd2 (a b : S) : S × S := sym.actHop (-sym.which a) a b

/-- `Symmetry.in_fd(site)` (builder.py l.302-307). -/
def inFd (a : S) : Bool := decide (sym.which a = 0)

/-- What a symmetry has to satisfy (documented in builder.py l.241-270).  `torsion`: no group element
other than the identity is its own inverse (true for groups of translations). -/
structure Lawful : Prop where
  act_zero : ∀ s, sym.act 0 s = s
  act_add : ∀ g h s, sym.act g (sym.act h s) = sym.act (g + h) s
  which_act : ∀ g s, sym.which (sym.act g s) = g + sym.which s
  torsion : ∀ g : G, g + g = 0 → g = 0

/-- The symmetry object returned by `reversed()` for any group of translations (lattice.py l.723-733 with
l.688-706): elements act by their inverses. -/
def reversed : Symmetry S G where
  act := fun g s => sym.act (-g) s
  which := fun s => -sym.which s

end Symmetry

/-- `NoSymmetry` (builder.py l.326-366): group elements are empty tuples. -/
def noSymmetry (S : Type) : Symmetry S (Fin 0 → ℤ) where
  act := fun _ s => s
  which := fun _ => 0

/-! ### Translational symmetries -/

/-- Data cached for one site family by `add_site_family` (lattice.py l.575-675), for `k` periods.
`m` is the integer matrix built in l.640-663: its first `k` columns are the periods. -/
structure FamData (k : ℕ) where
  dim : ℕ
  m : Matrix (Fin dim) (Fin dim) ℤ
  le : k ≤ dim
  /-- l.665-667: `RuntimeError` is raised for a vanishing determinant. -/
  det_ne : m.det ≠ 0

namespace FamData
variable {k : ℕ} (d : FamData k)

/-- `m_part = m[:, :num_dir]` (l.673). -/
def mPart : Matrix (Fin d.dim) (Fin k) ℤ := fun i j => d.m i (Fin.castLE d.le j)
/-- `det_x_inv_m_part = det_x_inv_m[:num_dir, :]` (l.669-672). -/
def adjPart : Matrix (Fin k) (Fin d.dim) ℤ := fun i j => d.m.adjugate (Fin.castLE d.le i) j

end FamData

/-- `TranslationalSymmetry` (lattice.py l.533-544): number of periods, data per family, `is_reversed`. -/
structure TransSym (F : Type) where
  k : ℕ
  fam : F → FamData k
  isReversed : Bool

/-- A lattice site (builder.py l.37-101): family and integer tag of the dimension of the family. -/
structure LSite {F : Type} (t : TransSym F) where
  family : F
  tag : Fin (t.fam family).dim → ℤ

namespace TransSym
variable {F : Type} (t : TransSym F)

/-- `TranslationalSymmetry.which` (lattice.py l.688-691); `//` is floor division. -/
def which (s : LSite t) : Fin t.k → ℤ :=
  let result : Fin t.k → ℤ := fun i =>
    Int.fdiv ((t.fam s.family).adjPart.mulVec s.tag i) (t.fam s.family).m.det
  if t.isReversed then -result else result

/-- `TranslationalSymmetry.act(element, a)` (lattice.py l.693-706). -/
def act (g : Fin t.k → ℤ) (s : LSite t) : LSite t :=
  let delta := (t.fam s.family).mPart.mulVec g
  ⟨s.family, s.tag + (if t.isReversed then -delta else delta)⟩

/-- The symmetry object. -/
def toSymmetry : Symmetry (LSite t) (Fin t.k → ℤ) := ⟨t.act, t.which⟩

/-- `TranslationalSymmetry.reversed` (lattice.py l.723-733). -/
def reversed : TransSym F := { t with isReversed := !t.isReversed }

/-- Position of a lattice point: `tag @ prim_vecs + offset` (lattice.py `Monatomic.pos`, l.501-503). -/
def latPos {R : Type} [CommRing R] {n D : ℕ} (prim : Matrix (Fin n) (Fin D) R) (offset : Fin D → R)
    (tag : Fin n → ℤ) : Fin D → R := fun x => (∑ j, ((tag j : ℤ) : R) * prim j x) + offset x

/-- A site of the symmetry, seen by the reversed symmetry (sites know nothing about symmetries; in the
model the type of tags mentions the symmetry, with the same dimensions). -/
def LSite.rev {t : TransSym F} (s : LSite t) : LSite t.reversed := ⟨s.family, s.tag⟩

end TransSym
end Kwant
