import Mathlib.Analysis.InnerProductSpace.PiL2
import Mathlib.Algebra.Order.Round
import Mathlib.Tactic.FieldSimp
import Mathlib.Tactic.Linarith

/-!
# `kwant.plotter.map`: pixels, masks and where they are drawn

Model of `mask_interpolate` (plotter.py l.1531-1621), of the images that `_map_matplotlib` (l.1809-1848) and `_map_plotly` (l.1767-1806) pass to the plotting
libraries, and of `percentile_bound` (l.202-227).

Simplifications: exact real arithmetic; a given reference length `a` (not the one estimated from ten random sites); `scipy.interpolate.griddata` is any
function that reproduces the values at the sites (`Interpolates`), which all three methods do; `cKDTree.query(..., eps=0.4)` is any function with the documented
guarantee (`QueryOk`).  The warning about nearly coinciding sites is not modelled.
-/

set_option linter.unusedSectionVars false

namespace Kwant.MapPlot

variable {d : ℕ}

/-- A position in `d` dimensions, with Euclidean distances. -/
abbrev Pos (d : ℕ) := EuclideanSpace ℝ (Fin d)

/-- Exceptions. -/
inductive Err where
  | value
deriving DecidableEq

/-- `coords.min(0)` (l.1572) for the coordinates of the sites `c0 :: rest`. -/
noncomputable def cmin (c0 : Pos d) (rest : List (Pos d)) (i : Fin d) : ℝ := rest.foldr (fun c m => min (c i) m) (c0 i)

/-- `coords.max(0)` (l.1572) -/
noncomputable def cmax (c0 : Pos d) (rest : List (Pos d)) (i : Fin d) : ℝ := rest.foldr (fun c m => max (c i) m) (c0 i)

/-- `numpy.round`: to the nearest integer, ties to the even one. -/
noncomputable def npRound (x : ℝ) : ℤ := if Int.fract x = 1 / 2 then (if Even ⌊x⌋ then ⌊x⌋ else ⌊x⌋ + 1) else round x

/-- A picture: the number of pixels in each direction, `min`, `max` (l.1596-1597), the value and the mask of each pixel. -/
structure Image (d : ℕ) where
  shape : Fin d → ℕ
  lo : Fin d → ℝ
  hi : Fin d → ℝ
  img : (Fin d → ℕ) → ℝ
  mask : (Fin d → ℕ) → Prop

/-- `start + j * step` in `np.mgrid[start:stop:n * 1j]` -/
noncomputable def grid (start stop : ℝ) (n j : ℕ) : ℝ := if n = 1 then start else start + j * ((stop - start) / (n - 1))

/-- The position of a pixel (l.1598-1603). -/
noncomputable def Image.pos (im : Image d) (j : Fin d → ℕ) : Pos d := WithLp.toLp 2 fun i => grid (im.lo i) (im.hi i) (im.shape i) (j i)

/-- `mask_interpolate` (l.1571-1621) with a given reference length `a`; `interp` is `griddata` of the sites and their values, `query` the distance that
`tree.query` returns. -/
noncomputable def maskInterpolate (c0 : Pos d) (rest : List (Pos d)) (values : List ℝ) (a : ℝ) (oversampling : ℕ) (interp : Pos d → ℝ) (query : Pos d → ℝ) :
    Except Err (Image d) :=
  if a < 1e-6 * ‖(WithLp.toLp 2 fun i => cmax c0 rest i - cmin c0 rest i : Pos d)‖ then .error .value
  else if (c0 :: rest).length ≠ values.length then .error .value
  else
    let delta := 0.5 * (oversampling - 1) * a / oversampling
    let lo := fun i => cmin c0 rest i - delta
    let hi := fun i => cmax c0 rest i + delta
    let shape := fun i => (npRound (((cmax c0 rest i - cmin c0 rest i) / a + 1) * oversampling)).natAbs
    let pix := fun (j : Fin d → ℕ) => (WithLp.toLp 2 fun i => grid (lo i) (hi i) (shape i) (j i) : Pos d)
    .ok ⟨shape, lo, hi, fun j => interp (pix j), fun j => query (pix j) > 0.99 * a⟩

/-! ## Contracts -/

/-- `griddata`: the value at each site is reproduced. -/
def Interpolates (sites : List (Pos d)) (values : List ℝ) (interp : Pos d → ℝ) : Prop :=
  ∀ (n : ℕ) (c : Pos d) (v : ℝ), sites[n]? = some c → values[n]? = some v → interp c = v

/-- `cKDTree.query(p, eps=0.4)`: the distance to some site, at most 1.4 times the smallest distance. -/
def QueryOk (sites : List (Pos d)) (query : Pos d → ℝ) : Prop :=
  ∀ p, (∃ c ∈ sites, query p = dist p c) ∧ ∀ c ∈ sites, query p ≤ 1.4 * dist p c

/-! ## Specification -/

/-- The sites belong to a square (cubic, ...) lattice with spacing `a`. -/
def OnSquareLattice (a : ℝ) (sites : List (Pos d)) : Prop := ∃ o : Fin d → ℝ, ∀ c ∈ sites, ∃ n : Fin d → ℤ, ∀ i, c i = o i + a * n i

/-- `j` is the index of a pixel. -/
def Image.Pixel (im : Image d) (j : Fin d → ℕ) : Prop := ∀ i, j i < im.shape i

/-! ## Drawing -/

/-- `border = 0.5 * (_max - _min) / (np.asarray(img.shape) - 1)` (l.1770, l.1813); `none`: division by zero, the result is `inf` or `nan`. -/
noncomputable def border (im : Image 2) (i : Fin 2) : Option ℝ :=
  if im.shape i = 1 then none else some (0.5 * (im.hi i - im.lo i) / ((im.shape i : ℝ) - 1))

/-- `ax.imshow(img.T, extent=(_min[0], _max[0], _min[1], _max[1]), origin='lower')` (l.1814-1829) divides the extent in equal cells, this is the center of the one
that shows pixel `j`. -/
noncomputable def drawnMpl (im : Image 2) (j : Fin 2 → ℕ) (i : Fin 2) : Option ℝ :=
  (border im i).map fun b => (im.lo i - b) + ((j i : ℝ) + 1 / 2) * (((im.hi i + b) - (im.lo i - b)) / im.shape i)

/-- The list `contour_object.x` (l.1774-1778): `img` has been transposed before its shape is used. -/
noncomputable def plotlyX (im : Image 2) : Option (List ℝ) :=
  (border im 0).map fun b => (List.range (im.shape 1)).map fun k : ℕ => grid (im.lo 0 - b) (im.hi 0 + b) (im.shape 1) k

/-- The list `contour_object.y` (l.1779). -/
noncomputable def plotlyY (im : Image 2) : Option (List ℝ) :=
  (border im 1).map fun b => (List.range (im.shape 0)).map fun k : ℕ => grid (im.lo 1 - b) (im.hi 1 + b) (im.shape 0) k

end Kwant.MapPlot
