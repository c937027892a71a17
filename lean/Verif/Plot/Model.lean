import Mathlib.Analysis.SpecialFunctions.Trigonometric.Basic
import Mathlib.Data.List.Sort

/-!
Model of the interpolation of currents and densities in kwant/plotter.py (l.2180-2505, l.2878-2887).

Simplifications
* Exact real arithmetic; `int` is the floor, since its arguments are not negative.
* Positions are functions on the `d` directions; arrays are lists or functions of the index.  A field has a value for every index, those below its shape are what the code calculates.
* A slice starts at an index that is not negative, since it belongs to a position in the bounding box.
* `x / 0 = 0`, which is what `nan_to_num` makes of the direction of a hopping of length 0.  A bump of width 0, and a graph without edges where `np.unique` has no last element, are faults of their
  own (`index`).
* The `k-d tree` of `_mask` is modelled by its contract.
-/

set_option linter.unusedSectionVars false

namespace Kwant.Plot

/-- Exceptions. -/
inductive PErr where
  | value | index
deriving DecidableEq

/-- `_bump` (plotter.py l.2184-2187). -/
noncomputable def bump (r : ℝ) : ℝ :=
  let r' := if r > 1 then 1 else r
  let m := 1 - r' * r'
  m * m

/-- `np.clip` -/
noncomputable def clip (x lo hi : ℝ) : ℝ := min (max x lo) hi

/-- `_smoothing` (plotter.py l.2195-2204). -/
noncomputable def smoothing (rho z : ℝ) : ℝ :=
  let r0 := 1 - rho * rho
  let r1 := if r0 < 0 then 0 else r0
  let r := Real.sqrt r1
  let m := clip z (-r) r
  let rr := r * r
  let rrrr := rr * rr
  let mm := m * m
  m * (mm * (mm / 5 - (2 / 3) * rr) + rrrr) + (8 / 15) * rrrr * r

/-- `_smoothing_cross_sections` (plotter.py l.2214). -/
noncomputable def crossSections : List ℝ := [16 / 15, Real.pi / 3, 32 * Real.pi / 105]

/-- The smallest element of a list. -/
noncomputable def lmin : List ℝ → ℝ
  | [] => 0
  | x :: l => l.foldl min x

/-- The largest element of a list. -/
noncomputable def lmax : List ℝ → ℝ
  | [] => 0
  | x :: l => l.foldl max x

/-- The loop over the sorted lengths (plotter.py l.2224-2226): the first that is long enough, or the last. -/
noncomputable def firstLong (longest : ℝ) : List ℝ → ℝ
  | [] => longest
  | x :: l => if x / longest > 1 / 1000 then x else firstLong longest l

open Classical in
/-- `np.unique` -/
noncomputable def unique (l : List ℝ) : List ℝ := (l.mergeSort fun a b => decide (a ≤ b)).dedup

/-- `_optimal_width` (plotter.py l.2219-2233). -/
noncomputable def optimalWidth (lens : List ℝ) (abswidth relwidth : Option ℝ) (size : List ℝ) : ℝ :=
  abswidth.elim (relwidth.elim (4 * firstLong (lmax (unique lens)) (unique lens)) fun w => w * lmax size) fun w => w

/-- The shape of the field in one direction (plotter.py l.2242-2244). -/
noncomputable def shapeOf (size width : ℝ) (n : ℕ) : ℕ :=
  let k := ⌊size * n / width + n⌋₊
  if k % 2 = 1 then k + 1 else k

variable {d : ℕ}

/-- `np.sum(x * x)` -/
noncomputable def sumSq (x : Fin d → ℝ) : ℝ := ∑ e, x e * x e

/-- `density_kernel` (plotter.py l.2250-2252). -/
noncomputable def densityKernel (coords : Fin d → ℝ) (_ : Fin 1) : ℝ := bump (Real.sqrt (sumSq coords))

/-- `current_kernel` (plotter.py l.2255-2259). -/
noncomputable def currentKernel (dir : Fin d → ℝ) (length : ℝ) (coords : Fin d → ℝ) (e : Fin d) : ℝ :=
  let z := ∑ e, coords e * dir e
  let rho := Real.sqrt |sumSq coords - z * z|
  dir e * (smoothing rho z - smoothing rho (z - length))

/-- What is passed to `_interpolate_field` besides the elements: the bounding box, the width, the shape. -/
structure Grid (d : ℕ) where
  lo : Fin d → ℝ
  hi : Fin d → ℝ
  width : ℝ
  shape : Fin d → ℕ

/-- `padding` (plotter.py l.2247). -/
noncomputable def Grid.pad (g : Grid d) : ℝ := g.width / 2

/-- `scale` (plotter.py l.2269). -/
noncomputable def Grid.scale (g : Grid d) : ℝ := 2 / g.width

/-- The point of the grid with the given index: `np.linspace` in every direction (plotter.py l.2290-2293). -/
noncomputable def Grid.point (g : Grid d) (idx : Fin d → ℕ) (e : Fin d) : ℝ :=
  g.lo e - g.pad + idx e * (((g.hi e + g.pad) - (g.lo e - g.pad)) / ((g.shape e : ℝ) - 1))

/-- `grid_density` (plotter.py l.2295). -/
noncomputable def Grid.density (g : Grid d) (e : Fin d) : ℝ := ((g.shape e : ℝ) - 1) / (g.hi e + 2 * g.pad - g.lo e)

/-- `slices[i, :, 0]` (plotter.py l.2304). -/
noncomputable def Grid.start (g : Grid d) (mn : Fin d → ℝ) (e : Fin d) : ℤ := ⌊(mn e - g.lo e) * g.density e⌋

/-- `slices[i, :, 1]` (plotter.py l.2305). -/
noncomputable def Grid.stop (g : Grid d) (mx : Fin d → ℝ) (e : Fin d) : ℤ := ⌈(mx e + 2 * g.pad - g.lo e) * g.density e⌉

/-- An element: a site, or a hopping from `p0` to `p1`, with its value. -/
structure Elem (d : ℕ) where
  p0 : Fin d → ℝ
  p1 : Fin d → ℝ
  val : ℝ

/-- The field, `k` components for every index. -/
abbrev Field (d k : ℕ) := (Fin d → ℕ) → Fin k → ℝ

open Classical in
/-- The body of the loop over the elements (plotter.py l.2309-2331). -/
noncomputable def addElem {k : ℕ} (g : Grid d) (kernel : Elem d → (Fin d → ℝ) → Fin k → ℝ) (field : Field d k) (el : Elem d) : Field d k :=
  let mn := fun e => min (el.p0 e) (el.p1 e)
  let mx := fun e => max (el.p0 e) (el.p1 e)
  if (∃ e, g.stop mx e - g.start mn e = 0) ∨ el.val = 0 then field
  else fun idx => if ∀ e, g.start mn e ≤ idx e ∧ (idx e : ℤ) < g.stop mx e then
      fun c => field idx c + kernel el (fun e => (g.point idx e - el.p0 e) * g.scale) c * el.val
    else field idx

/-- `_interpolate_field` (plotter.py l.2263-2333). -/
noncomputable def interpolateField {k : ℕ} (g : Grid d) (kernel : Elem d → (Fin d → ℝ) → Fin k → ℝ) (els : List (Elem d)) : Except PErr (Field d k) :=
  crossSections[d - 1]?.elim (.error .index) fun a => .ok fun idx c => els.foldl (addElem g kernel) (fun _ _ => 0) idx c * (g.scale / a)

/-- `lens` (plotter.py l.2278). -/
noncomputable def Elem.len (el : Elem d) : ℝ := Real.sqrt (sumSq fun e => el.p1 e - el.p0 e)

/-- `dirs` (plotter.py l.2277-2280). -/
noncomputable def Elem.dir (el : Elem d) (e : Fin d) : ℝ := (el.p1 e - el.p0 e) / el.len

/-- The body of the loop that takes the average of the currents each way (plotter.py l.2391-2399).  The array `current_one_way` and the dictionary `seen_hoppings` are one list. -/
noncomputable def oneWayStep (acc : List ((ℕ × ℕ) × ℝ)) (e : (ℕ × ℕ) × ℝ) : List ((ℕ × ℕ) × ℝ) :=
  if (e.1.2, e.1.1) ∈ acc.map Prod.fst then acc.map fun a => if a.1 = (e.1.2, e.1.1) then (a.1, a.2 - e.2) else a
  else acc ++ [e]

/-- The hoppings with their currents (plotter.py l.2384-2400).  The arrays have `num_edges // 2` elements. -/
noncomputable def oneWay (pos : ℕ → Fin d → ℝ) (edges : List (ℕ × ℕ)) (current : List ℝ) : Except PErr (List (Elem d)) :=
  let acc := (edges.zip current).foldl oneWayStep []
  if acc.length ≠ edges.length / 2 then .error .index
  else .ok (acc.map fun a => ⟨pos a.1.2, pos a.1.1, a.2 / 2⟩)

/-- The grid for a bounding box (plotter.py l.2238-2247). -/
noncomputable def gridOf (lo hi : Fin d → ℝ) (width : ℝ) (n : ℕ) : Grid d := ⟨lo, hi, width, fun e => shapeOf (hi e - lo e) width n⟩

/-- The bounding box of the hoppings, and the width (plotter.py l.2402-2413). -/
noncomputable def currentGrid (els : List (Elem d)) (abswidth relwidth : Option ℝ) (n : ℕ) : Grid d :=
  let lo := fun e => lmin (els.map fun el => min (el.p0 e) (el.p1 e))
  let hi := fun e => lmax (els.map fun el => max (el.p0 e) (el.p1 e))
  gridOf lo hi (optimalWidth (els.map Elem.len) abswidth relwidth (List.ofFn fun e => hi e - lo e)) n

/-- `interpolate_current` (plotter.py l.2375-2423). -/
noncomputable def interpolateCurrent (pos : ℕ → Fin d → ℝ) (edges : List (ℕ × ℕ)) (current : List ℝ) (relwidth abswidth : Option ℝ) (n : ℕ) : Except PErr (Field d d × Grid d) :=
  if current.length ≠ edges.length then .error .value
  else (oneWay pos edges current).bind fun els =>
    if els = [] then .error .value
    else (interpolateField (currentGrid els abswidth relwidth n) (fun el => currentKernel el.dir (el.len * (currentGrid els abswidth relwidth n).scale)) els).map fun f =>
      (f, currentGrid els abswidth relwidth n)

/-- The bounding box of the sites, and the width (plotter.py l.2481-2489). -/
noncomputable def densityGrid (sites : List (Fin d → ℝ)) (pos : ℕ → Fin d → ℝ) (edges : List (ℕ × ℕ)) (abswidth relwidth : Option ℝ) (n : ℕ) : Grid d :=
  let lo := fun e => lmin (sites.map fun s => s e)
  let hi := fun e => lmax (sites.map fun s => s e)
  gridOf lo hi (optimalWidth (edges.map fun p => Real.sqrt (sumSq fun e => pos p.1 e - pos p.2 e)) abswidth relwidth (List.ofFn fun e => hi e - lo e)) n

/-- `interpolate_density` without the mask (plotter.py l.2471-2495), for a system of `N` sites. -/
noncomputable def interpolateDensity (N : ℕ) (pos : ℕ → Fin d → ℝ) (edges : List (ℕ × ℕ)) (density : List ℝ) (relwidth abswidth : Option ℝ) (n : ℕ) : Except PErr (Field d 1 × Grid d) :=
  if density.length ≠ N then .error .value
  else if N = 0 then .error .index
  else
    let g := densityGrid ((List.range N).map pos) pos edges abswidth relwidth n
    (interpolateField g (fun _ => densityKernel) (((List.range N).zip density).map fun s => ⟨pos s.1, pos s.1, s.2⟩)).map fun f => (f, g)

/-- `_mask` (plotter.py l.2878-2887) with `cutoff=0.6*width` (plotter.py l.2497-2503): `tree.query` says infinity if no site is closer than the cutoff. -/
def masked (N : ℕ) (pos : ℕ → Fin d → ℝ) (g : Grid d) (idx : Fin d → ℕ) : Prop :=
  ∀ i < N, ¬ Real.sqrt (sumSq fun e => g.point idx e - pos i e) < 6 / 10 * g.width

end Kwant.Plot
