import Verif.Symmetry.Model
import Mathlib.Tactic.Abel
import Mathlib.Tactic.Ring
import Mathlib.LinearAlgebra.Matrix.Notation

/-! # C10-C12: symmetries -/

namespace Kwant

/-! ## Consequences of lawfulness (used everywhere) -/
namespace Symmetry
variable {S G : Type} [AddCommGroup G] [DecidableEq G] {sym : Symmetry S G}

/-- Two sites are in the same orbit. -/
def SameOrbit (sym : Symmetry S G) (a b : S) : Prop := ∃ g, b = sym.act g a

theorem Lawful.act_neg_act (h : sym.Lawful) (g : G) (s : S) : sym.act (-g) (sym.act g s) = s := by
  rw [h.act_add, neg_add_cancel, h.act_zero]
theorem Lawful.act_act_neg (h : sym.Lawful) (g : G) (s : S) : sym.act g (sym.act (-g) s) = s := by
  rw [h.act_add, add_neg_cancel, h.act_zero]

theorem Lawful.which_toFd (h : sym.Lawful) (s : S) : sym.which (sym.toFd s) = 0 := by
  simp [toFd, h.which_act]

theorem Lawful.act_inj (h : sym.Lawful) {g : G} {a b : S} : sym.act g a = sym.act g b ↔ a = b := by
  constructor
  · intro hab
    have := congrArg (sym.act (-g)) hab
    rwa [h.act_neg_act, h.act_neg_act] at this
  · rintro rfl; rfl

/-- Freeness of the action. -/
theorem Lawful.act_free (h : sym.Lawful) {g g' : G} {a : S} : sym.act g a = sym.act g' a ↔ g = g' := by
  constructor
  · intro hab
    have := congrArg sym.which hab
    rw [h.which_act, h.which_act] at this
    exact add_right_cancel this
  · rintro rfl; rfl

theorem Lawful.toFd_act (h : sym.Lawful) (g : G) (s : S) : sym.toFd (sym.act g s) = sym.toFd s := by
  simp only [toFd, h.which_act, h.act_add]
  congr 1; abel

theorem Lawful.toFd2_act (h : sym.Lawful) (g : G) (a b : S) :
    sym.toFd2 (sym.act g a) (sym.act g b) = sym.toFd2 a b := by
  simp only [toFd2, actHop, h.which_act, h.act_add]
  congr 2 <;> abel

theorem Lawful.reversed (h : sym.Lawful) : sym.reversed.Lawful where
  act_zero := fun s => by simp [Symmetry.reversed, h.act_zero]
  act_add := fun g g' s => by simp [Symmetry.reversed, h.act_add]; congr 1; abel
  which_act := fun g s => by simp [Symmetry.reversed, h.which_act]; abel
  torsion := h.torsion

theorem reversed_toFd2 (a b : S) : sym.reversed.toFd2 a b = sym.toFd2 a b := by
  simp [Symmetry.reversed, toFd2, actHop]

theorem Lawful.toFd_of_which (h : sym.Lawful) {s : S} (hs : sym.which s = 0) : sym.toFd s = s := by
  simp [toFd, hs, h.act_zero]

end Symmetry

/-! ## C10/C11 for every lawful symmetry -/

section General
variable {S G : Type} [AddCommGroup G] [DecidableEq G] {sym : Symmetry S G}

/-- C11: `to_fd(s)` lies in the fundamental domain, is in the orbit of `s`, is idempotent, and two sites
are in the same orbit iff they have the same image; on a hopping it moves both ends by the same element
and the first end as for a single site. -/
theorem C11_toFd (h : sym.Lawful) (s : S) :
    sym.inFd (sym.toFd s) = true ∧ sym.SameOrbit s (sym.toFd s) ∧ sym.toFd (sym.toFd s) = sym.toFd s ∧
    (∀ t, sym.SameOrbit s t ↔ sym.toFd s = sym.toFd t) ∧ (sym.inFd s = true → sym.toFd s = s) ∧
    (∀ b, ∃ g, sym.toFd2 s b = (sym.act g s, sym.act g b) ∧ sym.act g s = sym.toFd s) := by
  refine ⟨by simp [Symmetry.inFd, h.which_toFd], ⟨_, rfl⟩, h.toFd_of_which (h.which_toFd s), ?_, ?_, ?_⟩
  · intro t
    constructor
    · rintro ⟨g, rfl⟩; rw [h.toFd_act]
    · intro hst
      refine ⟨sym.which t + -sym.which s, ?_⟩
      rw [← h.act_add]
      change t = sym.act (sym.which t) (sym.toFd s)
      rw [hst, Symmetry.toFd, h.act_act_neg]
  · intro hs; exact h.toFd_of_which (by simpa [Symmetry.inFd] using hs)
  · intro b; exact ⟨_, rfl, rfl⟩

end General

/-! ## Translational symmetries are lawful -/

namespace TransSym
variable {F : Type} (t : TransSym F)

theorem fdiv_add {a b c : ℤ} (h : c ≠ 0) : Int.fdiv (a + c * b) c = b + Int.fdiv a c := by
  rw [Int.add_mul_fdiv_left _ _ h]; ring

/-- The asserted relation between the cached matrices (lattice.py l.669-670), for the cached parts. -/
theorem adj_mPart {k : ℕ} (d : FamData k) (g : Fin k → ℤ) :
    d.adjPart.mulVec (d.mPart.mulVec g) = fun i => d.m.det * g i := by
  have h1 : d.adjPart * d.mPart = d.m.det • (1 : Matrix (Fin k) (Fin k) ℤ) := by
    ext i j
    have h := congrFun (congrFun (Matrix.adjugate_mul d.m) (Fin.castLE d.le i)) (Fin.castLE d.le j)
    simp only [Matrix.mul_apply, Matrix.smul_apply, Matrix.one_apply] at h ⊢
    rw [show (∑ x, d.adjPart i x * d.mPart x j) =
      ∑ x, d.m.adjugate (Fin.castLE d.le i) x * d.m x (Fin.castLE d.le j) from rfl, h]
    congr 1
    simp [Fin.ext_iff]
  rw [Matrix.mulVec_mulVec, h1]
  ext i
  simp [Matrix.smul_mulVec]

/-- C10 + C11: a translational symmetry (reversed or not, any dimensions, any periods, determinant of
either sign) acts as a group, and `which` is equivariant: `which(act(g, s)) = g + which(s)`. -/
theorem C10_lawful : t.toSymmetry.Lawful where
  act_zero := by
    rintro ⟨f, tag⟩
    simp [toSymmetry, act]
  act_add := by
    rintro g h ⟨f, tag⟩
    simp only [toSymmetry, act]
    congr 1
    by_cases hr : t.isReversed = true
    · simp only [hr, if_true, Matrix.mulVec_add]; abel
    · simp only [hr, Matrix.mulVec_add]
      simp only [Bool.false_eq_true, if_false]; abel
  which_act := by
    rintro g ⟨f, tag⟩
    have hd := (t.fam f).det_ne
    simp only [toSymmetry, act, which]
    by_cases hr : t.isReversed = true
    · simp only [hr, if_true]
      funext i
      simp only [Pi.neg_apply, Pi.add_apply, Matrix.mulVec_add, Matrix.mulVec_neg, adj_mPart]
      rw [show ∀ a b c : ℤ, a + -(b * c) = a + b * (-c) by intros; ring, fdiv_add hd]
      ring
    · simp only [hr]
      simp only [Bool.false_eq_true, if_false]
      funext i
      simp only [Pi.add_apply, Matrix.mulVec_add, adj_mPart, fdiv_add hd]
  torsion := by
    intro g hg
    funext i
    have := congrFun hg i
    simp only [Pi.add_apply, Pi.zero_apply] at this ⊢
    change g i + g i = 0 at this
    omega

/-- C10: acting on a hopping acts on both ends, also across site families. -/
theorem C10_actHop (g : Fin t.k → ℤ) (a b : LSite t) :
    t.toSymmetry.actHop g a b = (t.act g a, t.act g b) := rfl

/-- C10, real-space meaning: if the columns of `m_part` are the periods in the basis of the lattice
(`bravais_periods · prim_vecs = periods`, checked by lattice.py l.620-627), then acting with `g` moves
the position of a site (`prim_vecs`-combination of the tag plus offset, lattice.py `Monatomic.pos`) by
`∑ gᵢ periodᵢ` (by minus that for a reversed symmetry, whose `periods` are negated). -/
theorem C10_position {R : Type} [CommRing R] {D : ℕ} (f : F)
    (prim : Matrix (Fin (t.fam f).dim) (Fin D) R) (offset : Fin D → R)
    (periods : Matrix (Fin t.k) (Fin D) R)
    (hper : ∀ i x, ∑ j, ((t.fam f).mPart j i : R) * prim j x = periods i x)
    (g : Fin t.k → ℤ) (tag : Fin (t.fam f).dim → ℤ) :
    latPos prim offset (t.act g ⟨f, tag⟩).tag =
      latPos prim offset tag +
        (if t.isReversed then fun x => -∑ i, (g i : R) * periods i x
          else fun x => ∑ i, (g i : R) * periods i x) := by
  have key : ∀ x, ∑ j, (((t.fam f).mPart.mulVec g j : ℤ) : R) * prim j x =
      ∑ i, (g i : R) * periods i x := by
    intro x
    simp only [← hper, Matrix.mulVec, dotProduct, Int.cast_sum, Int.cast_mul, Finset.sum_mul,
      Finset.mul_sum]
    rw [Finset.sum_comm]
    refine Finset.sum_congr rfl fun i _ => Finset.sum_congr rfl fun j _ => ?_
    ring
  have hact : (t.act g ⟨f, tag⟩).tag = tag + (if t.isReversed then -(t.fam f).mPart.mulVec g
    else (t.fam f).mPart.mulVec g) := rfl
  rw [show latPos prim offset (t.act g ⟨f, tag⟩).tag = latPos prim offset (tag +
    (if t.isReversed then -(t.fam f).mPart.mulVec g else (t.fam f).mPart.mulVec g)) from rfl]
  funext x
  by_cases hr : t.isReversed = true
  · simp only [hr, if_true, latPos, Pi.add_apply, Pi.neg_apply, Int.cast_add, Int.cast_neg, add_mul,
      neg_mul, Finset.sum_add_distrib, Finset.sum_neg_distrib, key]
    ring
  · have hr' : t.isReversed = false := by simpa using hr
    simp only [hr', Bool.false_eq_true, if_false, latPos, Pi.add_apply, Int.cast_add, add_mul,
      Finset.sum_add_distrib, key]
    ring

/-! ## C12: reversed symmetries -/

/-- C12: the reversed symmetry acts by inverse elements, has opposite `which`, the same fundamental domain
and the same `to_fd`; reversing twice is the identity. -/
theorem C12_reversed (g : Fin t.k → ℤ) (s : LSite t) :
    t.reversed.act g (LSite.rev s) = LSite.rev (t.act (-g) s) ∧
    t.reversed.which (LSite.rev s) = -t.which s ∧
    t.reversed.toSymmetry.inFd (LSite.rev s) = t.toSymmetry.inFd s ∧
    t.reversed.toSymmetry.toFd (LSite.rev s) = LSite.rev (t.toSymmetry.toFd s) ∧
    t.reversed.reversed = t := by
  have hact : ∀ g : Fin t.k → ℤ, t.reversed.act g (LSite.rev s) = LSite.rev (t.act (-g) s) := by
    intro g
    simp only [act, LSite.rev, reversed]
    congr 1
    by_cases hr : t.isReversed = true <;> simp [hr, Matrix.mulVec_neg] <;> rfl
  have hwhich : t.reversed.which (LSite.rev s) = -t.which s := by
    simp only [which, LSite.rev, reversed]
    by_cases hr : t.isReversed = true <;> simp [hr] <;> rfl
  refine ⟨hact g, hwhich, ?_, ?_, ?_⟩
  · have : (t.reversed.which (LSite.rev s) = 0) ↔ (t.which s = 0) := by
      rw [hwhich]; exact neg_eq_zero
    exact decide_eq_decide.mpr this
  · show t.reversed.act (-t.reversed.which (LSite.rev s)) (LSite.rev s) = LSite.rev (t.act (-t.which s) s)
    rw [hwhich]
    have := hact (- -t.which s)
    rw [neg_neg (-t.which s)] at this
    exact this
  · simp [reversed]

/-- C12, as symmetry objects: `reversed` of a translational symmetry is the group reversal. -/
theorem C12_reversed_symmetry (g : Fin t.k → ℤ) (s : LSite t) :
    t.reversed.toSymmetry.act g (LSite.rev s) = LSite.rev (t.toSymmetry.reversed.act g s) ∧
    t.reversed.toSymmetry.which (LSite.rev s) = t.toSymmetry.reversed.which s :=
  ⟨(t.C12_reversed g s).1, (t.C12_reversed g s).2.1⟩

end TransSym

/-- `NoSymmetry` is lawful. -/
theorem noSymmetry_lawful (S : Type) : (noSymmetry S).Lawful where
  act_zero := fun _ => rfl
  act_add := fun _ _ _ => rfl
  which_act := fun _ _ => by funext i; exact i.elim0
  torsion := fun _ _ => by funext i; exact i.elim0

/-! ## Non-vacuity: a two-dimensional lattice with one period (1, 2), completed by (1, 0): determinant -2 -/

/-- A family with a negative determinant. -/
def exampleFam : FamData 1 where
  dim := 2
  m := !![1, 1; 2, 0]
  le := by decide
  det_ne := by simp [Matrix.det_fin_two]

/-- The corresponding symmetry, reversed. -/
def exampleSym : TransSym Unit := ⟨1, fun _ => exampleFam, true⟩

example : exampleSym.toSymmetry.Lawful := exampleSym.C10_lawful
example : (fun i => exampleFam.mPart i 0) = ![1, 2] := by
  funext i; fin_cases i <;> rfl
example : exampleSym.act (fun _ => 3) ⟨(), ![5, 5]⟩ = ⟨(), ![2, -1]⟩ := by
  simp only [TransSym.act]
  congr 1
  funext i; fin_cases i <;> rfl

end Kwant
