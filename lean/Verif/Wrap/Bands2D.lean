import Verif.Lattice.ClosestSite
import Verif.Plot.Spectrum
import Verif.Wrap.Props
import Mathlib.Analysis.Convex.Hull
import Mathlib.Analysis.InnerProductSpace.PiL2

/-!
C187: kwant/wraparound.py, `plot_2d_bands`.

Simplifications: exact real arithmetic; the routines of numpy, scipy and qhull are parameters with contracts; loops get a number of steps (as in C70-C72); the
Hamiltonian of the system is a function of the values of its parameters; drawing is `plotter.spectrum`, the model of C174.
-/

set_option linter.unusedSectionVars false

namespace Kwant.Bands2D
open Kwant.LLL Kwant.Cvp Kwant.Voronoi Kwant.Lat Kwant.Spectrum

/-- The plane. -/
abbrev Pl := EuclideanSpace ℝ (Fin 2)

local notation "⟪" x ", " y "⟫" => inner ℝ x y

/-- `B`: the columns are the lattice vectors (wraparound.py l.378). -/
def matB (a : Fin 2 → Pl) : Matrix (Fin 2) (Fin 2) ℝ := Matrix.of fun x j => a j x

/-- `A = np.linalg.pinv(B).T` (l.380).  Periods of a symmetry are linearly independent, so that the pseudoinverse is the inverse. -/
noncomputable def matA (a : Fin 2 → Pl) : Matrix (Fin 2) (Fin 2) ℝ := (matB a)⁻¹.transpose

/-- The rows of `A.T`: reciprocal vectors (without 2π). -/
noncomputable def recip (a : Fin 2 → Pl) (j : Fin 2) : Pl := WithLp.toLp 2 fun x => matA a x j

/-- `ta.dot(lll.voronoi(reduced_vecs), transf)`: a row (l.386) -/
def rowDot (z : Fin 2 → ℤ) (transf : Matrix (Fin 2) (Fin 2) ℤ) : Fin 2 → ℤ := fun j => ∑ k, z k * transf k j

/-- `klat_points` (l.385-391) -/
noncomputable def klatPoints (N : Num Pl 2) (a : Fin 2 → Pl) (fuel : ℕ) : Option (Except LErr (List Pl)) :=
  match lll N.lstsq (recip a) 1.34 fuel with
  | none => none
  | some (.error e) => some (.error e)
  | some (.ok (reduced, transf)) =>
    (voronoi N.lsq (N.sort reduced) reduced false 1e-9 fuel).map fun V =>
      .ok (((fun _ => 0) :: V.map fun z => rowDot z transf).map fun p => (2 * Real.pi) • latPt (recip a) p)

/-- `k_max = np.max(np.abs(bz_vertices), axis=0)` (l.397) -/
noncomputable def kMax (vertices : List Pl) (i : Fin 2) : ℝ := (vertices.map fun v => |v i|).foldr max 0

/-- `np.linspace(start, stop, n)` -/
noncomputable def linspace (start stop : ℝ) (n : ℕ) : List ℝ :=
  (List.range n).map fun i : ℕ => if n = 1 then start else start + (i : ℝ) * ((stop - start) / ((n : ℝ) - 1))

/-- `k_x`, `k_y`: a number of points or the points. -/
inductive Grid where
  | number (n : ℕ)
  | points (l : List ℝ)

open Classical in
/-- The points of an axis (l.401-407) -/
noncomputable def axisPoints (k : Grid) (extend : ℝ) (km : ℝ) : List ℝ :=
  match k with
  | .points l => l
  | .number n =>
    let km := if extend ≠ 0 then km + km * extend else km
    linspace (-km) km n

/-- Values of parameters: numbers and other objects. -/
inductive PVal (V : Type) where
  | num (x : ℝ)
  | obj (v : V)

variable {V H : Type}

/-- A number. -/
def getNum : Option (PVal V) → ℝ
  | some (.num x) => x
  | _ => 0

/-- The array `[k_x, k_y]` made of the arguments of these names. -/
noncomputable def kOf (f : String → Option (PVal V)) : Pl := WithLp.toLp 2 ![getNum (f "k_x"), getNum (f "k_y")]

/-- `momentum_to_lattice` (l.413-418): for a square matrix `scipy.linalg.lstsq` returns an empty array of residuals, the error is never raised. -/
noncomputable def momentumToLattice (N : Num Pl 2) (a : Fin 2 → Pl) (k : Pl) : Fin 2 → ℝ := N.lsq (recip a) k

/-- `ham` (l.420-424): arguments other than `k_x`, `k_y` replace entries of `zip(momentum_names, k)` in `dict(zip(...), **params)`. -/
noncomputable def hamK (N : Num Pl 2) (a : Fin 2 → Pl) (names : List String) (sys : (String → Option (PVal V)) → H) (f : String → Option (PVal V)) : H :=
  sys fun nm => if nm ≠ "k_x" ∧ nm ≠ "k_y" ∧ (f nm).isSome then f nm
    else lookup (names.zip ((List.ofFn (momentumToLattice N a (kOf f))).map PVal.num)) nm

open Classical in
/-- `np.argmin`: the first of the smallest entries. -/
noncomputable def argmin (l : List ℝ) : ℕ := l.findIdx fun x => ∀ y ∈ l, x ≤ y

/-- `outside_bz` (l.426-428) -/
noncomputable def outsideBz (klat : List Pl) (p : Dict String (PVal V)) : Bool := argmin (klat.map fun q => ‖q - kOf (lookup p)‖) != 0

/-- Exceptions -/
inductive BErr where
  | notWrapped | notFinite | notFinalized | lattice2D | realspace2D | lll (e : LErr) | plot (e : Spectrum.Err)
  deriving DecidableEq

/-- What the argument is. -/
inductive Kind where
  | infinite | builder | finite
  deriving DecidableEq

/-- The part after the checks (l.377-436). -/
noncomputable def bands {E : Type} (N : Num Pl 2) (vor : List Pl → List Pl) (eig : H → List E) (a : Fin 2 → Pl) (names : List String)
    (sys : (String → Option (PVal V)) → H) (kx ky : Grid) (params : Dict String (PVal V)) (mask : Bool) (extend : ℝ) (fuel : ℕ) :
    Option (Except BErr (Axis String (PVal V) × Axis String (PVal V) × Arr E)) :=
  match klatPoints N a fuel with
  | none => none
  | some (.error e) => some (.error (.lll e))
  | some (.ok klat) =>
    let km := kMax (vor klat)
    let x : Axis String (PVal V) := ⟨"k_x", (axisPoints kx extend (km 0)).map PVal.num⟩
    let y : Axis String (PVal V) := ⟨"k_y", (axisPoints ky extend (km 1)).map PVal.num⟩
    match generate (hamK N a names sys) eig params (if mask then some (outsideBz klat) else none) x (some y) with
    | .error e => some (.error (.plot e))
    | .ok s => some (.ok (x, y, s))

/-- A system with the attributes that `wraparound` adds (`none` if it has none). -/
structure Syst (V H : Type) where
  m : ℕ
  n : ℕ
  periods : Fin m → Fin n → ℝ
  names : List String
  kind : Kind
  ham : (String → Option (PVal V)) → H

/-- `plot_2d_bands` (l.288-436) -/
noncomputable def plot2dBands {E : Type} (N : Num Pl 2) (vor : List Pl → List Pl) (eig : H → List E) (syst : Option (Syst V H)) (kx ky : Grid)
    (params : Dict String (PVal V)) (mask : Bool) (extend : ℝ) (fuel : ℕ) : Option (Except BErr (Axis String (PVal V) × Axis String (PVal V) × Arr E)) :=
  match syst with
  | none => some (.error .notWrapped)
  | some s =>
    if s.kind = .infinite then some (.error .notFinite)
    else if s.kind = .builder then some (.error .notFinalized)
    else if hm : s.m ≠ 2 then some (.error .lattice2D)
    else if hn : s.n ≠ s.m then some (.error .realspace2D)
    else bands N vor eig (fun i => WithLp.toLp 2 fun x => s.periods (i.cast (not_not.mp hm).symm) (x.cast (((not_not.mp hn).trans (not_not.mp hm)).symm))) s.names s.ham kx ky params
      mask extend fuel

/-- The contract of `scipy.spatial.Voronoi`: if the region of the first point is bounded, it is the convex hull of its vertices. -/
def VorOk (vor : List Pl → List Pl) : Prop :=
  ∀ p0 l, Bornology.IsBounded {x | ∀ p ∈ l, ‖x - p0‖ ≤ ‖x - p‖} → convexHull ℝ {v | v ∈ vor (p0 :: l)} = {x | ∀ p ∈ l, ‖x - p0‖ ≤ ‖x - p‖}

/-! ### Specification -/

/-- Reciprocal lattice vectors: translations by the periods do not change `exp(i G·r)`. -/
def Reciprocal (a : Fin 2 → Pl) (G : Pl) : Prop := ∀ i, ∃ n : ℤ, ⟪a i, G⟫ = 2 * Real.pi * n

/-- The first Brillouin zone: momenta for which no reciprocal lattice vector is closer than zero. -/
def BZ (a : Fin 2 → Pl) : Set Pl := {k | ∀ G, Reciprocal a G → ‖k‖ ≤ ‖k - G‖}

/-- The periods are linearly independent. -/
def Indep (a : Fin 2 → Pl) : Prop := a 0 0 * a 1 1 - a 0 1 * a 1 0 ≠ 0

/-! ### Reciprocal vectors -/

variable {a : Fin 2 → Pl}

theorem inner_two (x y : Pl) : ⟪x, y⟫ = x 0 * y 0 + x 1 * y 1 := by
  rw [PiLp.inner_apply, Fin.sum_univ_two]
  simp only [RCLike.inner_apply, conj_trivial]
  ring

theorem det_matB : (matB a).det = a 0 0 * a 1 1 - a 0 1 * a 1 0 := by
  simp only [matB, Matrix.det_fin_two, Matrix.of_apply]; ring

theorem recip_zero (h : Indep a) : recip a 0 0 = a 1 1 / (a 0 0 * a 1 1 - a 0 1 * a 1 0) ∧ recip a 0 1 = -a 1 0 / (a 0 0 * a 1 1 - a 0 1 * a 1 0) ∧
    recip a 1 0 = -a 0 1 / (a 0 0 * a 1 1 - a 0 1 * a 1 0) ∧ recip a 1 1 = a 0 0 / (a 0 0 * a 1 1 - a 0 1 * a 1 0) := by
  have hd : IsUnit (matB a).det := by rw [det_matB]; exact isUnit_iff_ne_zero.mpr h
  have e : (matB a)⁻¹ = ((a 0 0 * a 1 1 - a 0 1 * a 1 0)⁻¹ : ℝ) • !![a 1 1, -a 1 0; -a 0 1, a 0 0] := by
    rw [Matrix.inv_def, Ring.inverse_eq_inv', det_matB, Matrix.adjugate_fin_two]
    simp [matB]
  have q : ∀ x j, recip a j x = (matB a)⁻¹ j x := fun x j => rfl
  rw [q, q, q, q, e]
  refine ⟨?_, ?_, ?_, ?_⟩ <;> simp [div_eq_mul_inv, mul_comm]

theorem dual (h : Indep a) (i j : Fin 2) : ⟪a i, recip a j⟫ = if i = j then 1 else 0 := by
  obtain ⟨e0, e1, e2, e3⟩ := recip_zero h
  have h' : a 0 0 * a 1 1 - a 0 1 * a 1 0 ≠ 0 := h
  rcases Fin.exists_fin_two.mp ⟨i, rfl⟩ with rfl | rfl <;> rcases Fin.exists_fin_two.mp ⟨j, rfl⟩ with rfl | rfl <;> rw [inner_two]
  · rw [e0, e1, if_pos rfl, ← mul_div_assoc, ← mul_div_assoc, ← add_div, div_eq_one_iff_eq h']; ring
  · rw [e2, e3, if_neg (by decide), ← mul_div_assoc, ← mul_div_assoc, ← add_div, div_eq_zero_iff]; left; ring
  · rw [e0, e1, if_neg (by decide), ← mul_div_assoc, ← mul_div_assoc, ← add_div, div_eq_zero_iff]; left; ring
  · rw [e2, e3, if_pos rfl, ← mul_div_assoc, ← mul_div_assoc, ← add_div, div_eq_one_iff_eq h']; ring

theorem recip_li (h : Indep a) : LinearIndependent ℝ (recip a) := by
  rw [Fintype.linearIndependent_iff]
  intro g hg i
  have := congrArg (fun v => ⟪a i, v⟫) hg
  simp only [inner_sum, real_inner_smul_right, dual h, inner_zero_right] at this
  simpa using this

theorem eq_of_inner (h : Indep a) {x y : Pl} (hxy : ∀ i, ⟪a i, x⟫ = ⟪a i, y⟫) : x = y := by
  have h0 := hxy 0
  have h1 := hxy 1
  rw [inner_two, inner_two] at h0 h1
  have h' : a 0 0 * a 1 1 - a 0 1 * a 1 0 ≠ 0 := h
  have p : x 0 = y 0 := by
    apply mul_left_cancel₀ h'
    linear_combination (a 1 1) * h0 - (a 0 1) * h1
  have q : x 1 = y 1 := by
    apply mul_left_cancel₀ h'
    linear_combination (a 0 0) * h1 - (a 1 0) * h0
  ext i
  fin_cases i
  · exact p
  · exact q

theorem inner_latPt (h : Indep a) (i : Fin 2) (z : Fin 2 → ℤ) : ⟪a i, latPt (recip a) z⟫ = z i := by
  unfold latPt
  simp only [inner_sum, real_inner_smul_right, dual h]
  simp

theorem reciprocal_iff (h : Indep a) (G : Pl) : Reciprocal a G ↔ ∃ z, G = (2 * Real.pi) • latPt (recip a) z := by
  constructor
  · intro hG
    choose n hn using hG
    refine ⟨n, eq_of_inner h fun i => ?_⟩
    rw [hn, real_inner_smul_right, inner_latPt h]
  · rintro ⟨z, rfl⟩ i
    exact ⟨z i, by rw [real_inner_smul_right, inner_latPt h]⟩

theorem bz_iff (h : Indep a) (k : Pl) : k ∈ BZ a ↔ ∀ z, ‖k‖ ≤ ‖k - (2 * Real.pi) • latPt (recip a) z‖ := by
  constructor
  · intro hk z
    exact hk _ ((reciprocal_iff h _).mpr ⟨z, rfl⟩)
  · intro hk G hG
    obtain ⟨z, rfl⟩ := (reciprocal_iff h _).mp hG
    exact hk z

end Kwant.Bands2D
