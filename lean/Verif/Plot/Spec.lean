import Verif.Plot.Model
import Mathlib.MeasureTheory.Integral.IntervalIntegral.Basic
import Mathlib.Analysis.Calculus.Deriv.Basic

/-! What interpolated fields should be. -/

set_option linter.unusedSectionVars false

namespace Kwant.Plot

variable {d : ℕ}

/-- The bump of the documentation: `f(r) = max(1 - (2*r / width)**2, 0)**2`, at the vector `x`. -/
noncomputable def bumpAt (width : ℝ) (x : Fin d → ℝ) : ℝ := max (1 - (2 * Real.sqrt (∑ e, x e ^ 2) / width) ^ 2) 0 ^ 2

/-- A current along the straight line from `p` to `q`, convoluted with the bump. -/
noncomputable def lineField (width : ℝ) (p q x : Fin d → ℝ) (c : Fin d) : ℝ := ∫ t in (0 : ℝ)..1, bumpAt width (fun e => x e - (p e + t * (q e - p e))) * (q c - p c)

/-- The currents of all edges, convoluted with the bump: the current `c` of the edge `(i, j)` flows from `j` to `i`.  Every hopping is there twice, hence the factor 1/2. -/
noncomputable def smoothCurrent (width : ℝ) (pos : ℕ → Fin d → ℝ) (edges : List (ℕ × ℕ)) (current : List ℝ) (x : Fin d → ℝ) (c : Fin d) : ℝ :=
  1 / 2 * ((edges.zip current).map fun k => k.2 * lineField width (pos k.1.2) (pos k.1.1) x c).sum

/-- The densities of all sites, convoluted with the bump. -/
noncomputable def smoothDensity (width : ℝ) (pos : ℕ → Fin d → ℝ) (N : ℕ) (density : List ℝ) (x : Fin d → ℝ) : ℝ :=
  (((List.range N).zip density).map fun k => k.2 * bumpAt width fun e => x e - pos k.1 e).sum

/-- The divergence of a vector field. -/
noncomputable def divergence (F : (Fin d → ℝ) → Fin d → ℝ) (x : Fin d → ℝ) : ℝ := ∑ e, deriv (fun t => F (Function.update x e t) e) (x e)

/-- The current that leaves a site. -/
noncomputable def outflow (edges : List (ℕ × ℕ)) (current : List ℝ) (s : ℕ) : ℝ :=
  1 / 2 * ((edges.zip current).map fun k => (if k.1.2 = s then k.2 else 0) - if k.1.1 = s then k.2 else 0).sum

end Kwant.Plot
