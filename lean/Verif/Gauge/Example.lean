import Verif.Gauge.Infinite
import Mathlib.Data.List.Sort
import Mathlib.Tactic.FinCases
import Mathlib.Analysis.SpecialFunctions.Integrals.Basic

/-!
# C62, C101: concrete systems; C64: the argument `average`
-/
set_option linter.unusedSectionVars false

namespace Kwant.Gauge
open Kwant.Dijkstra Complex

/-! ## The hypotheses of C62 are met -/

/-- Sort the numbers by length. -/
noncomputable def sortIdx (l : List ℝ) : List ℕ :=
  open Classical in (List.range l.length).insertionSort fun i j => l.getD i 0 ≤ l.getD j 0

theorem sortIdx_spec : ArgSort sortIdx := by
  classical
  intro l
  haveI : Std.Total fun i j : ℕ => l.getD i 0 ≤ l.getD j 0 := ⟨fun i j => le_total _ _⟩
  haveI : IsTrans ℕ fun i j : ℕ => l.getD i 0 ≤ l.getD j 0 := ⟨fun i j k h1 h2 => le_trans h1 h2⟩
  exact ⟨List.perm_insertionSort _ _, List.pairwise_insertionSort _ _⟩

theorem headD_spec : Choose (fun l => l.headD 0) := by
  intro l hl
  cases l with
  | nil => exact absurd rfl hl
  | cons a l => simp

/-- The links of a square of four sites. -/
def square : List (ℕ × ℕ) := [(0, 1), (1, 0), (1, 2), (2, 1), (2, 3), (3, 2), (3, 0), (0, 3)]

theorem square_ok : Links square 4 := by
  constructor <;> decide

/-- The corners of the unit square. -/
def corner : ℕ → Fin 2 → ℝ
  | 0 => ![0, 0]
  | 1 => ![1, 0]
  | 2 => ![1, 1]
  | _ => ![0, 1]

theorem square_flux (f : ℝ) : surfaceIntegralConst (area2 f) ([0, 1, 2, 3].map corner) = f := by
  simp [surfaceIntegralConst, area2, corner]

/-- Around a unit square in a field of strength 1, the phases multiply to `exp(i π) = -1`. -/
theorem square_phase : ∃ loops, loopsInFinite firstMin (fun l => l.headD 0) sortIdx square (fun _ _ => 1) 4 = some loops ∧
    around (peierlsFinite loops corner (surfaceIntegralConst (area2 1))) [0, 1, 2, 3] = -1 := by
  obtain ⟨loops, h1, h2⟩ := C62_constant firstMin (fun l => l.headD 0) sortIdx square_ok (dist := fun _ _ => 1) (by simp)
    firstMin_spec headD_spec sortIdx_spec corner (area2 1) (area2_alt 1)
  refine ⟨loops, h1, ?_⟩
  rw [h2 [0, 1, 2, 3] (by simp) (by decide), square_flux]
  rw [show I * (Real.pi : ℂ) * ((1 : ℝ) : ℂ) = Real.pi * I by push_cast; ring]
  exact Complex.exp_pi_mul_I

/-! ## C64 -/

/-- `_quad_triangle` (gauge.py l.37-45) in two dimensions with `tol = 0`; `dblquad` is the integral. -/
noncomputable def quadTriangle (f : (Fin 2 → ℝ) → ℝ) (o v w : Fin 2 → ℝ) (n : ℝ) : ℝ :=
  if n * n < 0 then 0 else ∫ x in (0 : ℝ)..1, ∫ y in (0 : ℝ)..(1 - x), n * f (o + x • v + y • w)

/-- `_average_triangle` (gauge.py l.52-53). -/
noncomputable def averageTriangle (f : (Fin 2 → ℝ) → ℝ) (o v w : Fin 2 → ℝ) (n : ℝ) : ℝ :=
  n * f (o + (1 / 3 : ℝ) • (v + w)) / 2

/-- `_surface_integral(f, loop, tol, average)` (gauge.py l.56-88) for a callable field in two dimensions. -/
noncomputable def surfaceIntegral (f : (Fin 2 → ℝ) → ℝ) (average : Bool) : List (Fin 2 → ℝ) → ℝ
  | [] => 0
  | origin :: points => ((points.zip points.tail).map fun e =>
      let v := e.1 - origin
      let w := e.2 - origin
      let n := v 0 * w 1 - v 1 * w 0
      if average then averageTriangle f origin v w n else quadTriangle f origin v w n).sum

/-- `magnetic_gauge.__call__(syst_field, tol=tol, average=average)` (gauge.py l.995-1033) for a finite system whose loops
have been found: line 1033 passes on `average=False`. -/
noncomputable def gaugeCall (loops : List (List ℕ)) (pos : ℕ → Fin 2 → ℝ) (f : (Fin 2 → ℝ) → ℝ) (_average : Bool) :
    ℕ → ℕ → ℂ :=
  peierlsFinite loops pos (surfaceIntegral f false)

/-- The documented result: the flux is estimated as `average` says. -/
noncomputable def gaugeDocumented (loops : List (List ℕ)) (pos : ℕ → Fin 2 → ℝ) (f : (Fin 2 → ℝ) → ℝ) (average : Bool) :
    ℕ → ℕ → ℂ :=
  peierlsFinite loops pos (surfaceIntegral f average)

/-- C64 holds for `average=False`. -/
theorem C64_partial (loops : List (List ℕ)) (pos : ℕ → Fin 2 → ℝ) (f : (Fin 2 → ℝ) → ℝ) :
    gaugeCall loops pos f false = gaugeDocumented loops pos f false := rfl

theorem triangle_quad : surfaceIntegral (fun p => p 0 ^ 2) false [![0, 0], ![1, 0], ![0, 1]] = 1 / 12 := by
  simp only [surfaceIntegral, quadTriangle, List.tail_cons, List.zip_cons_cons, List.zip_nil_right, List.map_cons,
    List.map_nil, List.sum_cons, List.sum_nil, add_zero]
  simp
  rw [show (fun x : ℝ => (1 - x) * x ^ 2) = fun x : ℝ => x ^ 2 - x ^ 3 by funext x; ring]
  rw [intervalIntegral.integral_sub (by simp) (by simp), integral_pow, integral_pow]
  norm_num

theorem triangle_average : surfaceIntegral (fun p => p 0 ^ 2) true [![0, 0], ![1, 0], ![0, 1]] = 1 / 18 := by
  simp [surfaceIntegral, averageTriangle]
  norm_num

/-- Disagreement with the documentation: `average=True` has no effect.  For three sites in a triangle and the field `x²` the
phase of the closing link is `exp(i π/12)`, the documented one is `exp(i π/18)`. -/
theorem C64_counterexample :
    (∀ loops pos f, gaugeCall loops pos f true = gaugeCall loops pos f false) ∧
    ∃ loops pos f, gaugeCall loops pos f true ≠ gaugeDocumented loops pos f true := by
  refine ⟨fun _ _ _ => rfl, [[0, 1, 2]], fun i => if i = 0 then ![0, 0] else if i = 1 then ![1, 0] else ![0, 1],
    fun p => p 0 ^ 2, ?_⟩
  intro h
  have h := congrFun (congrFun h 2) 0
  have e : ∀ flux, peierlsFinite [[0, 1, 2]]
      (fun i => if i = 0 then ![0, 0] else if i = 1 then ![1, 0] else (![0, 1] : Fin 2 → ℝ)) flux 2 0 =
        Complex.exp (I * Real.pi * flux [![0, 0], ![1, 0], ![0, 1]]) := by
    intro flux
    simp [peierlsFinite, calculatePhases, finiteWrapper, previousPhaseFinite]
  rw [gaugeCall, gaugeDocumented, e, e, triangle_quad, triangle_average] at h
  have h1 : Complex.exp (((Real.pi / 12 - Real.pi / 18 : ℝ) : ℂ) * I) = 1 := by
    rw [show (((Real.pi / 12 - Real.pi / 18 : ℝ) : ℂ) * I) =
      I * Real.pi * ((1 / 12 : ℝ) : ℂ) - I * Real.pi * ((1 / 18 : ℝ) : ℂ) by push_cast; ring, Complex.exp_sub, h]
    exact div_self (Complex.exp_ne_zero _)
  have h2 := congrArg Complex.re h1
  rw [Complex.exp_ofReal_mul_I_re, Complex.one_re, Real.cos_eq_one_iff_of_lt_of_lt] at h2
  · have := Real.pi_pos; linarith
  · have := Real.pi_pos; linarith
  · have := Real.pi_pos; linarith

/-! ## An infinite system -/

/-- The first position of a minimal element. -/
noncomputable def firstArgMin (l : List ℝ) : ℕ := (sortIdx l).headD 0

theorem firstArgMin_spec : ArgMin firstArgMin := by
  intro l hl
  obtain ⟨h1, h2⟩ := sortIdx_spec l
  unfold firstArgMin
  cases hs : sortIdx l with
  | nil =>
    rw [hs] at h1
    have := h1.length_eq
    simp at this
    exact absurd this.symm (by simpa using hl)
  | cons k ks =>
    rw [hs] at h1 h2
    have hk : k < l.length := List.mem_range.mp (h1.mem_iff.mp (by simp))
    refine ⟨hk, ?_⟩
    intro x hx
    obtain ⟨m, hm, rfl⟩ := List.mem_iff_getElem.mp hx
    have hmem : m ∈ k :: ks := h1.mem_iff.mpr (List.mem_range.mpr hm)
    have hle : l.getD k 0 ≤ l.getD m 0 := by
      rcases List.mem_cons.mp hmem with rfl | h
      · exact le_refl _
      · exact (List.pairwise_cons.mp h2).1 m h
    simpa [hm] using hle

/-- A ladder: two sites in the unit cell, and a hopping between the cells on either leg. -/
def ladder : List (ℕ × ℕ) := [(0, 1), (1, 0), (0, 2), (2, 0), (1, 3), (3, 1)]

theorem ladder_ok : InfLinks ladder 2 4 := by
  constructor <;> decide

theorem ladder_check : checkInfinite ladder 2 = true := by
  unfold checkInfinite
  rw [if_neg (by decide), if_neg]
  rintro ⟨i, j, hi, hj, h⟩
  apply h
  have h01 : Conn {e | e ∈ ucLinks ladder 2} 0 1 := .single (show (0, 1) ∈ ucLinks ladder 2 by decide)
  have h10 : Conn {e | e ∈ ucLinks ladder 2} 1 0 := .single (show (1, 0) ∈ ucLinks ladder 2 by decide)
  interval_cases i <;> interval_cases j
  · exact .refl
  · exact h01
  · exact h10
  · exact .refl

/-- The sites of the unit cell of the ladder. -/
def rung (i : ℕ) : Fin 2 → ℝ := ![0, i]

/-- Around `m` plaquettes of the ladder in a field of strength `f`, the phases multiply to `exp(i π m f)`; here `m = 2` with a
walk through three cells, far away from the fundamental domain. -/
theorem ladder_phase (f : ℝ) : ∃ loops,
    loopsInInfinite firstMin (fun l => l.headD 0) sortIdx firstArgMin ladder (fun _ _ => 1) 2 = some loops ∧
    ∃ P : ℤ × ℕ → ℤ × ℕ → ℂ, (∀ a b, Hop ladder 2 a b →
        peierlsInfinite 2 4 loops rung ![1, 0] (surfaceIntegralConst (area2 f)) a b = some (P a b)) ∧
      ((circuit [(5, 0), (6, 0), (7, 0), (7, 1), (6, 1), (5, 1)]).map fun e => P e.1 e.2).prod =
        Complex.exp (I * Real.pi * ((2 * f : ℝ) : ℂ)) := by
  obtain ⟨loops, h1, P, h2, h3⟩ := C101_constant firstMin (fun l => l.headD 0) sortIdx firstArgMin ladder_ok
    (dist := fun _ _ => 1) (by simp) firstMin_spec headD_spec sortIdx_spec firstArgMin_spec ladder_check (by decide) rung ![1, 0]
    (area2 f) (area2_alt f)
  refine ⟨loops, h1, P, h2, ?_⟩
  rw [h3 _ (by simp) ?_]
  · congr 4
    simp [surfaceIntegralConst, area2, rung]
    ring
  · have e1 : ∀ d : ℤ, Hop ladder 2 (d, 0) (d, 1) := fun d => .cell d (by omega) (by omega) (by decide)
    have e2 : ∀ d : ℤ, Hop ladder 2 (d, 1) (d, 0) := fun d => .cell d (by omega) (by omega) (by decide)
    have e3 : ∀ d : ℤ, Hop ladder 2 (d - 1, 0) (d, 0) := fun d => .up d (by omega) (by decide)
    have e4 : ∀ d : ℤ, Hop ladder 2 (d, 1) (d - 1, 1) := fun d => .down d (by omega) (by decide)
    intro e he
    simp only [circuit, List.tail_cons, List.take_succ_cons, List.take_zero, List.cons_append, List.nil_append,
      List.zip_cons_cons, List.zip_nil_right, List.mem_cons, List.not_mem_nil, or_false] at he
    rcases he with rfl | rfl | rfl | rfl | rfl | rfl
    · exact e3 6
    · exact e3 7
    · exact e1 7
    · exact e4 7
    · exact e4 6
    · exact e2 5

/-- Disagreement: a chain with one site per unit cell is connected, but the gauge cannot be computed. -/
theorem C101_counterexample (pick : List ℕ → (ℕ → ℝ) → ℕ) (choose : List ℕ → ℕ) (argsort : List ℝ → List ℕ)
    (argmin : List ℝ → ℕ) (dist : ℕ → ℕ → ℝ) :
    InfLinks [(0, 1), (1, 0)] 1 2 ∧ (∀ i j, i < 1 → j < 1 → Relation.ReflTransGen (fun a b => (a, b) ∈ [(0, 1), (1, 0)] ∧
      a < 1 ∧ b < 1) i j) ∧ loopsInInfinite pick choose argsort argmin [(0, 1), (1, 0)] dist 1 = none := by
  refine ⟨by constructor <;> decide, ?_, ?_⟩
  · intro i j hi hj
    obtain rfl : i = 0 := by omega
    obtain rfl : j = 0 := by omega
    exact .refl
  · unfold loopsInInfinite
    rw [if_pos]
    unfold checkInfinite
    rw [if_pos (by decide)]

end Kwant.Gauge
