import Mathlib.Analysis.SpecialFunctions.Trigonometric.Basic
import Mathlib.Analysis.Complex.Basic
import Mathlib.Analysis.Complex.Polynomial.Basic
import Mathlib.Topology.Instances.Matrix
import Mathlib.LinearAlgebra.Matrix.Trace
import Mathlib.Tactic

/-!
# `kwant/physics/leads.py` `square_selfenergy` (l.1199-1244)
-/

set_option linter.unusedSectionVars false

namespace Kwant.SquareSelf

open Matrix Filter Topology

/-! ## Model -/

/-- `psi_p_i[p, i]` (l.1219-1224). -/
noncomputable def psi (width p i : ℕ) : ℝ :=
  Real.sqrt (2 / (width + 1)) * Real.sin (Real.pi / (width + 1) * (p + 1) * (i + 1))

/-- `copysign(x, q)` for nonnegative `x` and nonzero `q`. -/
noncomputable def copysign (x q : ℝ) : ℝ := if 0 ≤ q then x else -x

/-- `f(q)` (l.1227-1231). -/
noncomputable def f (q : ℝ) : ℂ :=
  if |q| ≤ 2 then (q : ℂ) / 2 - Complex.I * (Real.sqrt (1 - (q / 2) ^ 2) : ℝ)
  else (q : ℂ) / 2 - (copysign (Real.sqrt ((q / 2) ^ 2 - 1)) q : ℝ)

/-- The argument of `f` for mode `p` (l.1234-1235). -/
noncomputable def qOf (width : ℕ) (hopping energy : ℝ) (p : ℕ) : ℝ :=
  let e := 2 * hopping * (1 - Real.cos (Real.pi / (width + 1) * (p + 1)))
  (energy - e) / hopping - 2

/-- `square_selfenergy(width, hopping, fermi_energy)` (l.1199-1244) for `hopping != 0`
(otherwise a `ZeroDivisionError` is raised), in exact arithmetic. -/
noncomputable def squareSelfenergy (width : ℕ) (hopping energy : ℝ) :
    Matrix (Fin width) (Fin width) ℂ :=
  Matrix.of fun i j => hopping * ∑ p : Fin width,
    (psi width p i : ℂ) * (starRingEnd ℂ) (psi width p j : ℂ) * f (qOf width hopping energy p)

/-! ## Specification: a semi-infinite strip of the square lattice -/

/-- The Hamiltonian of one cell: `width` sites in a row, onsite energy `4 hopping`,
and `-hopping` between neighbours. -/
def cellH (width : ℕ) (hopping : ℝ) : Matrix (Fin width) (Fin width) ℂ :=
  Matrix.of fun i j =>
    if i = j then 4 * hopping
    else if i.val + 1 = j.val ∨ j.val + 1 = i.val then -hopping else 0

/-- `F` is the matrix by which the solutions of the lead equations at the (complex) energy `z`
that decay into the lead are multiplied from cell to cell: `F^m v` solves
`-hopping psi(m-1) + (H - z) psi(m) - hopping psi(m+1) = 0` and tends to zero. -/
structure Decaying (width : ℕ) (hopping : ℝ) (z : ℂ) (F : Matrix (Fin width) (Fin width) ℂ) :
    Prop where
  solves : (-(hopping : ℂ)) • (1 : Matrix (Fin width) (Fin width) ℂ) +
    (cellH width hopping - z • 1) * F + (-(hopping : ℂ)) • (F * F) = 0
  decays : Tendsto (fun m : ℕ => F ^ m) atTop (𝓝 0)

/-! ## Transverse modes -/

theorem sum_cos (M : ℕ) (x : ℝ) :
    2 * Real.sin (x / 2) * ∑ j ∈ Finset.range M, Real.cos (j * x) =
      Real.sin ((M - 1 / 2) * x) + Real.sin (x / 2) := by
  induction M with
  | zero =>
    have : ((0 : ℕ) - 1 / 2 : ℝ) * x = -(x / 2) := by push_cast; ring
    rw [this]
    simp
  | succ M ih =>
    rw [Finset.sum_range_succ, mul_add, ih]
    have e1 : ((M + 1 : ℕ) - 1 / 2 : ℝ) * x = M * x + x / 2 := by push_cast; ring
    have e2 : (M - 1 / 2 : ℝ) * x = M * x - x / 2 := by ring
    rw [e1, e2, Real.sin_add, Real.sin_sub]
    ring

theorem sum_cos_pi {M k : ℕ} (h0 : 0 < k) (h1 : k < 2 * M) :
    ∑ j ∈ Finset.range M, Real.cos (j * (Real.pi * k / M)) = (1 - Real.cos (Real.pi * k)) / 2 := by
  have hM : (0 : ℝ) < M := by
    have : 0 < M := by omega
    exact_mod_cast this
  have hs : 0 < Real.sin (Real.pi * k / M / 2) := by
    apply Real.sin_pos_of_pos_of_lt_pi
    · have : (0 : ℝ) < k := by exact_mod_cast h0
      positivity
    · have : (k : ℝ) < 2 * M := by exact_mod_cast h1
      rw [div_div, div_lt_iff₀ (by positivity)]
      nlinarith [Real.pi_pos]
  have h := sum_cos M (Real.pi * k / M)
  have e : ((M : ℝ) - 1 / 2) * (Real.pi * k / M) = k * Real.pi - Real.pi * k / M / 2 := by
    field_simp
  rw [e, Real.sin_sub, Real.sin_nat_mul_pi] at h
  have : Real.cos (k * Real.pi) = Real.cos (Real.pi * k) := by rw [mul_comm]
  rw [this] at h
  have := mul_left_cancel₀ (show 2 * Real.sin (Real.pi * k / M / 2) ≠ 0 by positivity)
    (show 2 * Real.sin (Real.pi * k / M / 2) *
      ∑ j ∈ Finset.range M, Real.cos (j * (Real.pi * k / M)) =
      2 * Real.sin (Real.pi * k / M / 2) * ((1 - Real.cos (Real.pi * k)) / 2) by rw [h]; ring)
  exact this

/-- Orthogonality of the transverse wave functions. -/
theorem sum_sin {N a b : ℕ} (ha : 0 < a) (hb : 0 < b) (ha' : a ≤ N) (hb' : b ≤ N) :
    ∑ j ∈ Finset.range (N + 1), Real.sin (Real.pi / (N + 1) * a * j) *
      Real.sin (Real.pi / (N + 1) * b * j) = if a = b then ((N : ℝ) + 1) / 2 else 0 := by
  wlog hab : b ≤ a generalizing a b
  · have := this hb ha hb' ha' (by omega)
    rw [Finset.sum_congr rfl (fun j _ => mul_comm _ _), this]
    simp only [eq_comm]
  have hM : ((N + 1 : ℕ) : ℝ) = N + 1 := by push_cast; ring
  have step : ∀ j : ℕ, Real.sin (Real.pi / (N + 1) * a * j) * Real.sin (Real.pi / (N + 1) * b * j) =
      Real.cos (j * (Real.pi * (a - b : ℕ) / (N + 1 : ℕ))) / 2 -
      Real.cos (j * (Real.pi * (a + b : ℕ) / (N + 1 : ℕ))) / 2 := by
    intro j
    have e1 : (j * (Real.pi * (a - b : ℕ) / (N + 1 : ℕ)) : ℝ) =
        Real.pi / (N + 1) * a * j - Real.pi / (N + 1) * b * j := by
      rw [Nat.cast_sub hab, hM]; ring
    have e2 : (j * (Real.pi * (a + b : ℕ) / (N + 1 : ℕ)) : ℝ) =
        Real.pi / (N + 1) * a * j + Real.pi / (N + 1) * b * j := by
      rw [Nat.cast_add, hM]; ring
    rw [e1, e2, Real.cos_sub, Real.cos_add]
    ring
  rw [Finset.sum_congr rfl (fun j _ => step j), Finset.sum_sub_distrib, ← Finset.sum_div,
    ← Finset.sum_div, sum_cos_pi (k := a + b) (by omega) (by omega)]
  by_cases h : a = b
  · subst h
    have e : Real.cos (Real.pi * ((a + a : ℕ) : ℝ)) = 1 := by
      have : Real.pi * ((a + a : ℕ) : ℝ) = a * (2 * Real.pi) := by push_cast; ring
      rw [this, Real.cos_nat_mul_two_pi]
    rw [e]
    simp
  · rw [sum_cos_pi (k := a - b) (by omega) (by omega), if_neg h]
    have : Real.cos (Real.pi * ((a + b : ℕ) : ℝ)) = Real.cos (Real.pi * ((a - b : ℕ) : ℝ)) := by
      have : Real.pi * ((a + b : ℕ) : ℝ) = Real.pi * ((a - b : ℕ) : ℝ) + b * (2 * Real.pi) := by
        rw [Nat.cast_sub hab]; push_cast; ring
      rw [this, Real.cos_add_nat_mul_two_pi]
    rw [this]
    ring

/-- The matrix of the transverse wave functions. -/
noncomputable def S (N : ℕ) : Matrix (Fin N) (Fin N) ℂ := Matrix.of fun i p => (psi N p i : ℂ)

theorem psi_symm (N p i : ℕ) : psi N p i = psi N i p := by
  unfold psi
  congr 2
  ring

theorem S_sq (N : ℕ) : S N * S N = 1 := by
  ext a b
  simp only [Matrix.mul_apply, S, Matrix.of_apply, Matrix.one_apply]
  have e : ∀ j : Fin N, (psi N j a : ℂ) * (psi N b j : ℂ) =
      (((2 / (N + 1)) * (Real.sin (Real.pi / (N + 1) * (a.val + 1 : ℕ) * (j.val + 1 : ℕ)) *
        Real.sin (Real.pi / (N + 1) * (b.val + 1 : ℕ) * (j.val + 1 : ℕ))) : ℝ) : ℂ) := by
    intro j
    rw [← Complex.ofReal_mul]
    congr 1
    rw [psi_symm N j a]
    unfold psi
    have hs : Real.sqrt (2 / (N + 1)) * Real.sqrt (2 / (N + 1)) = 2 / ((N : ℝ) + 1) :=
      Real.mul_self_sqrt (by positivity)
    push_cast
    linear_combination (Real.sin (Real.pi / (N + 1) * (a.val + 1) * (j.val + 1)) *
      Real.sin (Real.pi / (N + 1) * (b.val + 1) * (j.val + 1))) * hs
  rw [Finset.sum_congr rfl (fun j _ => e j), ← Complex.ofReal_sum, ← Finset.mul_sum]
  have h := sum_sin (N := N) (a := a.val + 1) (b := b.val + 1) (by omega) (by omega) a.2 b.2
  rw [Finset.sum_range_succ', Finset.sum_range] at h
  simp only [Nat.cast_zero, mul_zero, Real.sin_zero, add_zero] at h
  rw [h]
  by_cases hab : a = b
  · subst hab
    rw [if_pos rfl, if_pos rfl]
    have : (2 / ((N : ℝ) + 1)) * ((N + 1) / 2) = 1 := by field_simp
    rw [this]
    simp
  · rw [if_neg hab, if_neg (by simpa [Fin.ext_iff] using hab)]
    simp

theorem sum_hit {N : ℕ} (g : ℕ → ℂ) (m : ℕ) (h : N ≤ m → g m = 0) :
    ∑ j : Fin N, (if j.val = m then g j.val else 0) = g m := by
  rw [Finset.sum_fin_eq_sum_range]
  by_cases hm : m < N
  · rw [Finset.sum_eq_single m]
    · simp [hm]
    · intro b hb hne
      simp [hne]
    · intro h; simp at h; omega
  · rw [h (by omega)]
    apply Finset.sum_eq_zero
    intro j hj
    have : j ≠ m := by
      have := Finset.mem_range.mp hj
      omega
    simp [this]

/-- The transverse wave functions are eigenvectors of the cell. -/
theorem cell_eig (N : ℕ) (t : ℝ) : cellH N t * S N = S N * Matrix.diagonal (fun p : Fin N =>
    ((4 * t - 2 * t * Real.cos (Real.pi / (N + 1) * (p.val + 1)) : ℝ) : ℂ)) := by
  ext i p
  rw [Matrix.mul_diagonal]
  simp only [Matrix.mul_apply, cellH, S, Matrix.of_apply]
  set g : ℕ → ℂ := fun j => ((Real.sqrt (2 / (N + 1)) *
    Real.sin (Real.pi / (N + 1) * (p.val + 1) * j) : ℝ) : ℂ) with hg
  have gp : ∀ j : Fin N, (psi N p j : ℂ) = g (j.val + 1) := by
    intro j
    simp only [hg, psi]
    push_cast
    rfl
  have g0 : g 0 = 0 := by simp [hg]
  have gN : g (N + 1) = 0 := by
    simp only [hg]
    have : Real.pi / (N + 1) * (p.val + 1) * ((N + 1 : ℕ) : ℝ) = (p.val + 1 : ℕ) * Real.pi := by
      push_cast
      field_simp
    rw [this, Real.sin_nat_mul_pi]
    simp
  have split : ∀ j : Fin N, (if i = j then (4 * t : ℂ)
      else if i.val + 1 = j.val ∨ j.val + 1 = i.val then -t else 0) * (psi N p j : ℂ) =
      (4 * t) * (if j.val = i.val then g (j.val + 1) else 0) -
      t * (if j.val = i.val + 1 then g (j.val + 1) else 0) -
      t * (if j.val + 1 = i.val then g (j.val + 1) else 0) := by
    intro j
    rw [gp]
    by_cases h1 : i = j
    · subst h1
      simp
    · have h1' : ¬ j.val = i.val := fun h => h1 (Fin.ext h.symm)
      by_cases h2 : j.val = i.val + 1
      · have h3 : ¬ j.val + 1 = i.val := by omega
        rw [if_neg h1, if_pos (Or.inl h2.symm), if_neg h1', if_pos h2, if_neg h3]
        ring
      · by_cases h3 : j.val + 1 = i.val
        · simp [h1, h1', h2, h3]
        · have : ¬ (i.val + 1 = j.val ∨ j.val + 1 = i.val) := by omega
          simp only [if_neg h1, if_neg this, if_neg h1', if_neg h2, if_neg h3]
          ring
  rw [Finset.sum_congr rfl (fun j _ => split j), Finset.sum_sub_distrib, Finset.sum_sub_distrib,
    ← Finset.mul_sum, ← Finset.mul_sum, ← Finset.mul_sum]
  rw [sum_hit (fun m => g (m + 1)) i.val (fun h => by have := i.2; omega),
    sum_hit (fun m => g (m + 1)) (i.val + 1) (fun h => by
      have : i.val + 1 = N := by have := i.2; omega
      simp only [this, gN])]
  have s3 : ∑ j : Fin N, (if j.val + 1 = i.val then g (j.val + 1) else 0) = g i.val := by
    by_cases hi : i.val = 0
    · rw [hi, g0]
      apply Finset.sum_eq_zero
      intro j _
      simp
    · obtain ⟨m, hm⟩ : ∃ m, i.val = m + 1 := ⟨i.val - 1, by omega⟩
      rw [hm]
      simp only [Nat.add_right_cancel_iff]
      exact sum_hit (fun m => g (m + 1)) m (fun h => by have := i.2; omega)
  rw [s3, gp]
  simp only [hg]
  have a1 : Real.pi / ((N : ℝ) + 1) * (p.val + 1) * ((i.val + 1 + 1 : ℕ) : ℝ) =
      Real.pi / (N + 1) * (p.val + 1) * ((i.val + 1 : ℕ) : ℝ) + Real.pi / (N + 1) * (p.val + 1) := by
    push_cast; ring
  have a2 : Real.pi / ((N : ℝ) + 1) * (p.val + 1) * ((i.val : ℕ) : ℝ) =
      Real.pi / (N + 1) * (p.val + 1) * ((i.val + 1 : ℕ) : ℝ) - Real.pi / (N + 1) * (p.val + 1) := by
    push_cast; ring
  rw [a1, a2, Real.sin_add, Real.sin_sub]
  push_cast
  ring

/-! ## Longitudinal solutions -/

/-- `f(q)` solves the quadratic equation. -/
theorem f_root (q : ℝ) : f q * f q - q * f q + 1 = 0 := by
  unfold f
  split_ifs with h
  · have h2 : 0 ≤ 1 - (q / 2) ^ 2 := by
      have := abs_le.mp h
      nlinarith
    have hs : ((Real.sqrt (1 - (q / 2) ^ 2) : ℝ) : ℂ) * ((Real.sqrt (1 - (q / 2) ^ 2) : ℝ) : ℂ) =
        1 - (q / 2) ^ 2 := by
      rw [← Complex.ofReal_mul, Real.mul_self_sqrt h2]
      push_cast
      ring
    linear_combination Complex.I ^ 2 * hs + (1 - ((q : ℂ) / 2) ^ 2) * Complex.I_mul_I
  · have h2 : 0 ≤ (q / 2) ^ 2 - 1 := by
      have := lt_abs.mp (not_le.mp h)
      rcases this with h | h <;> nlinarith
    have hs : ((copysign (Real.sqrt ((q / 2) ^ 2 - 1)) q : ℝ) : ℂ) *
        ((copysign (Real.sqrt ((q / 2) ^ 2 - 1)) q : ℝ) : ℂ) = (q / 2) ^ 2 - 1 := by
      have := Real.mul_self_sqrt h2
      rw [← Complex.ofReal_mul]
      have e : copysign (Real.sqrt ((q / 2) ^ 2 - 1)) q * copysign (Real.sqrt ((q / 2) ^ 2 - 1)) q =
          (q / 2) ^ 2 - 1 := by
        unfold copysign
        split_ifs <;> linarith
      rw [e]
      push_cast
      ring
    linear_combination hs

/-- Of the two solutions `f(q)` and `q - f(q)`, a number in the unit disk and not in the upper half plane is
closer to `f(q)`. -/
theorem f_closer (q : ℝ) (x : ℂ) (h1 : ‖x‖ ≤ 1) (h2 : x.im ≤ 0) :
    Complex.normSq (x - f q) ≤ Complex.normSq (x - (q - f q)) := by
  have hre : x.re * x.re + x.im * x.im ≤ 1 := by
    have : Complex.normSq x ≤ 1 := by
      rw [Complex.normSq_eq_norm_sq]
      nlinarith [norm_nonneg x]
    simpa [Complex.normSq_apply] using this
  unfold f
  split_ifs with h
  · have hs := Real.sqrt_nonneg (1 - (q / 2) ^ 2)
    set s := Real.sqrt (1 - (q / 2) ^ 2)
    simp only [Complex.normSq_apply]
    simp
    nlinarith
  · have h3 := lt_abs.mp (not_le.mp h)
    have hs := Real.sqrt_nonneg ((q / 2) ^ 2 - 1)
    set s := Real.sqrt ((q / 2) ^ 2 - 1)
    simp only [Complex.normSq_apply]
    simp
    have hx : -1 ≤ x.re ∧ x.re ≤ 1 := by constructor <;> nlinarith [mul_self_nonneg x.im]
    unfold copysign
    split_ifs with h4
    · have : 2 < q := by rcases h3 with h | h <;> linarith
      nlinarith
    · have : q < -2 := by rcases h3 with h | h <;> linarith
      nlinarith

/-- At a non-real energy exactly one of the two solutions decays. -/
theorem exists_small (w : ℂ) (hw : w.im ≠ 0) : ∃ x : ℂ, x * x - w * x + 1 = 0 ∧ ‖x‖ < 1 := by
  obtain ⟨s, hs⟩ := IsAlgClosed.exists_eq_mul_self (w * w - 4)
  have r1 : ((w - s) / 2) * ((w - s) / 2) - w * ((w - s) / 2) + 1 = 0 := by
    linear_combination -hs / 4
  have r2 : ((w + s) / 2) * ((w + s) / 2) - w * ((w + s) / 2) + 1 = 0 := by
    linear_combination -hs / 4
  have pr : ((w - s) / 2) * ((w + s) / 2) = 1 := by linear_combination hs / 4
  have pn : ‖(w - s) / 2‖ * ‖(w + s) / 2‖ = 1 := by rw [← norm_mul, pr, norm_one]
  have ne : ‖(w - s) / 2‖ ≠ 1 := by
    intro h
    have hc : (w - s) / 2 * (starRingEnd ℂ) ((w - s) / 2) = 1 := by
      rw [Complex.mul_conj, Complex.normSq_eq_norm_sq, h]
      simp
    have : (w + s) / 2 = (starRingEnd ℂ) ((w - s) / 2) := by
      have h0 : (w - s) / 2 ≠ 0 := by
        intro e
        rw [e] at pr
        simp at pr
      exact mul_left_cancel₀ h0 (pr.trans hc.symm)
    have e : w = (w - s) / 2 + (starRingEnd ℂ) ((w - s) / 2) := by rw [← this]; ring
    apply hw
    rw [e, Complex.add_im, Complex.conj_im, add_neg_cancel]
  rcases lt_or_gt_of_ne ne with h | h
  · exact ⟨_, r1, h⟩
  · refine ⟨_, r2, ?_⟩
    by_contra hc
    nlinarith [norm_nonneg ((w + s) / 2)]

theorem small_im {w x : ℂ} (hx : x * x - w * x + 1 = 0) (h1 : ‖x‖ < 1) (hw : 0 < w.im) :
    x.im < 0 := by
  have h0 : x ≠ 0 := by
    rintro rfl
    simp at hx
  have hn : Complex.normSq x < 1 := by
    rw [Complex.normSq_eq_norm_sq]
    nlinarith [norm_nonneg x]
  have hp : 0 < Complex.normSq x := Complex.normSq_pos.mpr h0
  have e : w * (Complex.normSq x : ℂ) = x * (Complex.normSq x : ℂ) + (starRingEnd ℂ) x := by
    rw [← Complex.mul_conj]
    linear_combination -(starRingEnd ℂ) x * hx
  have := congrArg Complex.im e
  simp at this
  by_contra hc
  nlinarith

/-- The decaying solution at the energy with a small positive imaginary part tends to `f`. -/
theorem small_close {q d : ℝ} {x : ℂ} (hd : 0 < d)
    (hx : x * x - (q + d * Complex.I) * x + 1 = 0) (h1 : ‖x‖ < 1) :
    ‖x - f q‖ ^ 2 ≤ d := by
  have him := small_im hx h1 (by simpa using hd)
  have hc := f_closer q x h1.le him.le
  rw [Complex.normSq_eq_norm_sq, Complex.normSq_eq_norm_sq] at hc
  have hc' : ‖x - f q‖ ≤ ‖x - (q - f q)‖ := by
    exact le_of_sq_le_sq hc (norm_nonneg _)
  have e : (x - f q) * (x - (q - f q)) = d * Complex.I * x := by
    linear_combination hx - f_root q
  have en := congrArg norm e
  rw [norm_mul, norm_mul, norm_mul, Complex.norm_I, Complex.norm_real, Real.norm_eq_abs,
    abs_of_pos hd] at en
  have : ‖x - f q‖ ^ 2 ≤ ‖x - f q‖ * ‖x - (q - f q)‖ := by
    rw [sq]
    exact mul_le_mul_of_nonneg_left hc' (norm_nonneg _)
  nlinarith

/-! ## The lead -/

/-- The matrix with the longitudinal solutions `x`. -/
noncomputable def sol (N : ℕ) (x : Fin N → ℂ) : Matrix (Fin N) (Fin N) ℂ :=
  -(S N * Matrix.diagonal x * S N)

/-- The longitudinal parameter at energy `z`. -/
noncomputable def wOf (N : ℕ) (t : ℝ) (z : ℂ) (p : Fin N) : ℂ :=
  (z - ((4 * t - 2 * t * Real.cos (Real.pi / (N + 1) * (p.val + 1)) : ℝ) : ℂ)) / t

theorem sol_pow (N : ℕ) (x : Fin N → ℂ) (m : ℕ) :
    sol N x ^ m = S N * Matrix.diagonal (fun p => (-x p) ^ m) * S N := by
  induction m with
  | zero =>
    simp [S_sq]
  | succ m ih =>
    rw [pow_succ, ih, sol]
    have : (fun p => (-x p) ^ (m + 1)) = fun p => (-x p) ^ m * (-x p) := by
      funext p; ring
    rw [this, ← Matrix.diagonal_mul_diagonal]
    have e : Matrix.diagonal (fun p => -x p) = -Matrix.diagonal x := by
      ext a b
      by_cases h : a = b
      · subst h; simp
      · simp [h]
    rw [e]
    calc S N * Matrix.diagonal (fun p => (-x p) ^ m) * S N * -(S N * Matrix.diagonal x * S N)
        = -(S N * Matrix.diagonal (fun p => (-x p) ^ m) * (S N * S N) * Matrix.diagonal x * S N) := by
          simp only [Matrix.mul_neg, Matrix.mul_assoc]
      _ = _ := by
          rw [S_sq, Matrix.mul_one]
          simp only [Matrix.mul_neg, Matrix.neg_mul, Matrix.mul_assoc]

theorem sol_decaying {N : ℕ} {t : ℝ} (ht : t ≠ 0) {z : ℂ} {x : Fin N → ℂ}
    (hx : ∀ p, x p * x p - wOf N t z p * x p + 1 = 0) (h1 : ∀ p, ‖x p‖ < 1) :
    Decaying N t z (sol N x) := by
  have htc : (t : ℂ) ≠ 0 := by exact_mod_cast ht
  constructor
  · have hH : cellH N t = S N * Matrix.diagonal (fun p : Fin N =>
        ((4 * t - 2 * t * Real.cos (Real.pi / (N + 1) * (p.val + 1)) : ℝ) : ℂ)) * S N := by
      rw [← cell_eig, Matrix.mul_assoc, S_sq, Matrix.mul_one]
    set D := Matrix.diagonal (fun p : Fin N =>
        ((4 * t - 2 * t * Real.cos (Real.pi / (N + 1) * (p.val + 1)) : ℝ) : ℂ)) with hD
    have e0 : cellH N t * sol N x = S N * (-(D * Matrix.diagonal x)) * S N := by
      rw [hH, sol]
      calc S N * D * S N * -(S N * Matrix.diagonal x * S N)
          = -(S N * D * (S N * S N) * Matrix.diagonal x * S N) := by
            simp only [Matrix.mul_neg, Matrix.mul_assoc]
        _ = _ := by
            rw [S_sq, Matrix.mul_one]
            simp only [Matrix.mul_neg, Matrix.neg_mul, Matrix.mul_assoc]
    have e1 : sol N x * sol N x = S N * (Matrix.diagonal x * Matrix.diagonal x) * S N := by
      rw [sol]
      calc -(S N * Matrix.diagonal x * S N) * -(S N * Matrix.diagonal x * S N)
          = S N * Matrix.diagonal x * (S N * S N) * Matrix.diagonal x * S N := by
            simp only [Matrix.mul_neg, Matrix.neg_mul, neg_neg, Matrix.mul_assoc]
        _ = _ := by
            rw [S_sq, Matrix.mul_one]
            simp only [Matrix.mul_assoc]
    have e2 : (1 : Matrix (Fin N) (Fin N) ℂ) = S N * 1 * S N := by rw [Matrix.mul_one, S_sq]
    have e3 : (z • (1 : Matrix (Fin N) (Fin N) ℂ)) * sol N x =
        S N * (-(z • Matrix.diagonal x)) * S N := by
      rw [sol]
      simp only [Matrix.smul_mul, Matrix.one_mul, Matrix.mul_neg, Matrix.neg_mul, Matrix.mul_smul,
        smul_neg]
    rw [Matrix.sub_mul, e0, e1, e3]
    conv_lhs => rw [e2]
    rw [← Matrix.smul_mul, ← Matrix.mul_smul, ← Matrix.smul_mul, ← Matrix.mul_smul,
      ← Matrix.sub_mul, ← Matrix.mul_sub, ← Matrix.add_mul, ← Matrix.mul_add,
      ← Matrix.add_mul, ← Matrix.mul_add]
    have key : (-(t : ℂ)) • (1 : Matrix (Fin N) (Fin N) ℂ) +
        (-(D * Matrix.diagonal x) - -(z • Matrix.diagonal x)) +
        (-(t : ℂ)) • (Matrix.diagonal x * Matrix.diagonal x) = 0 := by
      rw [hD, Matrix.diagonal_mul_diagonal, Matrix.diagonal_mul_diagonal]
      ext a b
      by_cases h : a = b
      · subst h
        have := hx a
        unfold wOf at this
        simp only [Matrix.add_apply, Matrix.sub_apply, Matrix.neg_apply, Matrix.smul_apply,
          Matrix.one_apply_eq, Matrix.diagonal_apply_eq, smul_eq_mul, Matrix.zero_apply]
        generalize (4 * t - 2 * t * Real.cos (Real.pi / (↑N + 1) * (↑↑a + 1))) = ε at this ⊢
        field_simp at this
        linear_combination -this
      · simp [h]
    rw [key]
    simp
  · have e : (fun m : ℕ => sol N x ^ m) =
        fun m : ℕ => S N * Matrix.diagonal (fun p => (-x p) ^ m) * S N := by
      funext m
      exact sol_pow N x m
    rw [e]
    have hd : Tendsto (fun m : ℕ => Matrix.diagonal (fun p => (-x p) ^ m)) atTop (𝓝 0) := by
      rw [← Matrix.diagonal_zero]
      have hc : Continuous (fun v : Fin N → ℂ => Matrix.diagonal v) :=
        continuous_id.matrix_diagonal
      apply (hc.tendsto (fun _ => 0)).comp
      rw [tendsto_pi_nhds]
      intro p
      apply tendsto_pow_atTop_nhds_zero_of_norm_lt_one
      rw [norm_neg]
      exact h1 p
    have hc : Continuous (fun M : Matrix (Fin N) (Fin N) ℂ => S N * M * S N) :=
      (continuous_const.matrix_mul continuous_id).matrix_mul continuous_const
    have := (hc.tendsto 0).comp hd
    simp only [Matrix.mul_zero, Matrix.zero_mul] at this
    exact this

/-- The current through the boundary of cell `m` of a pair of sequences. -/
theorem unique_decaying {N : ℕ} {t : ℝ} (ht : t ≠ 0) {z : ℂ} (hz : z.im ≠ 0)
    {F G : Matrix (Fin N) (Fin N) ℂ} (hF : Decaying N t z F) (hG : Decaying N t z G) : F = G := by
  set D : ℕ → Matrix (Fin N) (Fin N) ℂ := fun m => F ^ m - G ^ m with hD
  have hH : (cellH N t)ᴴ = cellH N t := by
    ext a b
    simp only [Matrix.conjTranspose_apply, cellH, Matrix.of_apply]
    by_cases h : a = b
    · subst h
      simp
    · have h' : ¬ b = a := fun e => h e.symm
      have ho : (b.val + 1 = a.val ∨ a.val + 1 = b.val) ↔ (a.val + 1 = b.val ∨ b.val + 1 = a.val) :=
        or_comm
      simp only [if_neg h, if_neg h', ho]
      split_ifs <;> simp
  have rec1 : ∀ K : Matrix (Fin N) (Fin N) ℂ, Decaying N t z K → ∀ m : ℕ,
      (t : ℂ) • K ^ (m + 2) = (cellH N t - z • 1) * K ^ (m + 1) - (t : ℂ) • K ^ m := by
    intro K hK m
    have h := congrArg (fun M => M * K ^ m) hK.solves
    simp only [Matrix.add_mul, Matrix.smul_mul, Matrix.one_mul, Matrix.zero_mul,
      Matrix.mul_assoc] at h
    have p1 : K * K ^ m = K ^ (m + 1) := (pow_succ' K m).symm
    have p2 : K * K ^ (m + 1) = K ^ (m + 2) := (pow_succ' K (m + 1)).symm
    rw [p1, p2] at h
    have : (t : ℂ) • K ^ (m + 2) = (cellH N t - z • 1) * K ^ (m + 1) - (t : ℂ) • K ^ m +
        -(-(t : ℂ) • K ^ m + (cellH N t - z • 1) * K ^ (m + 1) + -(t : ℂ) • K ^ (m + 2)) := by
      simp only [neg_smul]
      abel
    rw [this, h]
    simp
  have recD : ∀ m : ℕ, (t : ℂ) • D (m + 2) = (cellH N t - z • 1) * D (m + 1) - (t : ℂ) • D m := by
    intro m
    simp only [hD, smul_sub, Matrix.mul_sub]
    rw [rec1 F hF, rec1 G hG]
    abel
  set j : ℕ → ℝ := fun m => (Matrix.trace ((D m)ᴴ * D (m + 1))).im with hj
  set nn : ℕ → ℝ := fun m => (Matrix.trace ((D m)ᴴ * D m)).re with hnn
  have hreal : ∀ A : Matrix (Fin N) (Fin N) ℂ, (Matrix.trace (Aᴴ * cellH N t * A)).im = 0 := by
    intro A
    have : star (Matrix.trace (Aᴴ * cellH N t * A)) = Matrix.trace (Aᴴ * cellH N t * A) := by
      rw [← Matrix.trace_conjTranspose]
      congr 1
      rw [conjTranspose_mul, conjTranspose_mul, conjTranspose_conjTranspose, hH, Matrix.mul_assoc]
    exact Complex.conj_eq_iff_im.mp this
  have hnre : ∀ A : Matrix (Fin N) (Fin N) ℂ, (Matrix.trace (Aᴴ * A)).im = 0 := by
    intro A
    have : star (Matrix.trace (Aᴴ * A)) = Matrix.trace (Aᴴ * A) := by
      rw [← Matrix.trace_conjTranspose]
      congr 1
      rw [conjTranspose_mul, conjTranspose_conjTranspose]
    exact Complex.conj_eq_iff_im.mp this
  have hflip : ∀ A B : Matrix (Fin N) (Fin N) ℂ,
      (Matrix.trace (Aᴴ * B)).im = -(Matrix.trace (Bᴴ * A)).im := by
    intro A B
    have : star (Matrix.trace (Bᴴ * A)) = Matrix.trace (Aᴴ * B) := by
      rw [← Matrix.trace_conjTranspose]
      congr 1
      rw [conjTranspose_mul, conjTranspose_conjTranspose]
    rw [← this]
    simp
  have step : ∀ m, t * j (m + 1) = t * j m - z.im * nn (m + 1) := by
    intro m
    have e := congrArg (fun M => (Matrix.trace ((D (m + 1))ᴴ * M)).im) (recD m)
    simp only [Matrix.mul_smul, Matrix.mul_sub, Matrix.sub_mul, Matrix.trace_sub,
      Matrix.trace_smul, ← Matrix.mul_assoc, Matrix.smul_mul, Matrix.one_mul, Complex.sub_im,
      smul_eq_mul, Complex.mul_im, Complex.ofReal_re, Complex.ofReal_im, zero_mul, add_zero,
      hreal, hnre, mul_zero, zero_add] at e
    rw [hflip (D (m + 1)) (D m)] at e
    simp only [hj, hnn]
    rw [e]
    ring
  have npos : ∀ m, 0 ≤ nn m := by
    intro m
    simp only [hnn, Matrix.trace, Matrix.diag, Matrix.mul_apply, Matrix.conjTranspose_apply,
      Complex.re_sum]
    apply Finset.sum_nonneg
    intro a _
    apply Finset.sum_nonneg
    intro b _
    have : star (D m b a) * D m b a = (Complex.normSq (D m b a) : ℂ) := by
      rw [mul_comm]
      exact Complex.mul_conj _
    rw [this, Complex.ofReal_re]
    exact Complex.normSq_nonneg _
  have j0 : j 0 = 0 := by
    simp [hj, hD]
  have total : ∀ m, t * j m = -z.im * ∑ k ∈ Finset.range m, nn (k + 1) := by
    intro m
    induction m with
    | zero => simp [j0]
    | succ m ih =>
      rw [step, ih, Finset.sum_range_succ]
      ring
  have Dlim : Tendsto D atTop (𝓝 0) := by
    have := hF.decays.sub hG.decays
    simpa [hD] using this
  have jlim : Tendsto j atTop (𝓝 0) := by
    have hc : Continuous (fun P : Matrix (Fin N) (Fin N) ℂ × Matrix (Fin N) (Fin N) ℂ =>
        (Matrix.trace (P.1ᴴ * P.2)).im) :=
      Complex.continuous_im.comp
        ((continuous_fst.matrix_conjTranspose.matrix_mul continuous_snd).matrix_trace)
    have hp : Tendsto (fun m => (D m, D (m + 1))) atTop (𝓝 (0, 0)) :=
      Dlim.prodMk_nhds (Dlim.comp (tendsto_add_atTop_nat 1))
    have := (hc.tendsto (0, 0)).comp hp
    simp only [Matrix.mul_zero, Matrix.trace_zero, Complex.zero_im] at this
    exact this
  have n1 : nn 1 = 0 := by
    have slim : Tendsto (fun m => ∑ k ∈ Finset.range m, nn (k + 1)) atTop (𝓝 0) := by
      have h := (jlim.const_mul (-t / z.im))
      rw [mul_zero] at h
      refine h.congr (fun m => ?_)
      have := total m
      field_simp
      linarith
    have hm : Monotone (fun m => ∑ k ∈ Finset.range m, nn (k + 1)) := by
      apply monotone_nat_of_le_succ
      intro m
      rw [Finset.sum_range_succ]
      linarith [npos (m + 1)]
    have := hm.ge_of_tendsto slim 1
    simp at this
    exact le_antisymm this (npos 1)
  have D1 : D 1 = 0 := by
    ext a b
    have : ∑ a, ∑ b, Complex.normSq (D 1 b a) = 0 := by
      rw [← n1]
      simp only [hnn, Matrix.trace, Matrix.diag, Matrix.mul_apply, Matrix.conjTranspose_apply,
        Complex.re_sum]
      apply Finset.sum_congr rfl
      intro a _
      apply Finset.sum_congr rfl
      intro b _
      have : star (D 1 b a) * D 1 b a = (Complex.normSq (D 1 b a) : ℂ) := by
        rw [mul_comm]
        exact Complex.mul_conj _
      rw [this, Complex.ofReal_re]
    have h1 := (Finset.sum_eq_zero_iff_of_nonneg (fun a _ => Finset.sum_nonneg
      (fun b _ => Complex.normSq_nonneg _))).mp this b (Finset.mem_univ _)
    have h2 := (Finset.sum_eq_zero_iff_of_nonneg (fun b _ => Complex.normSq_nonneg _)).mp h1 a
      (Finset.mem_univ _)
    exact Complex.normSq_eq_zero.mp h2
  have : F - G = 0 := by simpa [hD] using D1
  exact sub_eq_zero.mp this

theorem qOf_eq (N : ℕ) {t : ℝ} (ht : t ≠ 0) (E : ℝ) (p : Fin N) :
    ((qOf N t E p : ℝ) : ℂ) = wOf N t E p := by
  have htc : (t : ℂ) ≠ 0 := by exact_mod_cast ht
  simp only [qOf, wOf]
  push_cast
  field_simp
  ring

theorem wOf_add (N : ℕ) {t : ℝ} (ht : t ≠ 0) (E η : ℝ) (p : Fin N) :
    wOf N t (E + η * Complex.I) p = (qOf N t E p : ℝ) + ((η / t : ℝ) : ℂ) * Complex.I := by
  rw [qOf_eq N ht]
  have htc : (t : ℂ) ≠ 0 := by exact_mod_cast ht
  simp only [wOf]
  push_cast
  field_simp
  ring

theorem limit_aux {N : ℕ} {t : ℝ} (ht : t ≠ 0) (E : ℝ) (F : ℝ → Matrix (Fin N) (Fin N) ℂ)
    (hF : ∀ η : ℝ, 0 < η / t → Decaying N t (E + η * Complex.I) (F η)) (l : Filter ℝ)
    (hl : ∀ᶠ η in l, 0 < η / t) (hl0 : Tendsto (fun η : ℝ => η / t) l (𝓝 0)) :
    Tendsto (fun η => (-(t : ℂ)) • F η) l (𝓝 (squareSelfenergy N t E)) := by
  have ex : ∀ η : ℝ, 0 < η / t → ∃ x : Fin N → ℂ, F η = sol N x ∧
      ∀ p, ‖x p - f (qOf N t E p)‖ ^ 2 ≤ η / t := by
    intro η hη
    have him : ∀ p, (wOf N t (E + η * Complex.I) p).im ≠ 0 := by
      intro p
      rw [wOf_add N ht]
      simpa using hη.ne'
    choose x hx h1 using fun p => exists_small _ (him p)
    have hη0 : η ≠ 0 := by
      rintro rfl
      simp at hη
    refine ⟨x, unique_decaying ht (by simpa using hη0) (hF η hη) (sol_decaying ht hx h1), ?_⟩
    intro p
    apply small_close hη _ (h1 p)
    have := hx p
    rwa [wOf_add N ht] at this
  classical
  set x : ℝ → Fin N → ℂ := fun η => if h : 0 < η / t then (ex η h).choose else 0 with hxd
  have hx1 : ∀ η, 0 < η / t → F η = sol N (x η) := by
    intro η h
    simp only [hxd, dif_pos h]
    exact (ex η h).choose_spec.1
  have hx2 : ∀ η, 0 < η / t → ∀ p, ‖x η p - f (qOf N t E p)‖ ^ 2 ≤ η / t := by
    intro η h p
    simp only [hxd, dif_pos h]
    exact (ex η h).choose_spec.2 p
  have xlim : ∀ p, Tendsto (fun η => x η p) l (𝓝 (f (qOf N t E p))) := by
    intro p
    rw [tendsto_iff_norm_sub_tendsto_zero]
    have hs : Tendsto (fun η : ℝ => Real.sqrt (η / t)) l (𝓝 0) := by
      have := (Real.continuous_sqrt.tendsto 0).comp hl0
      rw [Real.sqrt_zero] at this
      exact this
    refine squeeze_zero' (Eventually.of_forall fun η => norm_nonneg _) ?_ hs
    filter_upwards [hl] with η h
    exact Real.le_sqrt_of_sq_le (hx2 η h p)
  have main : Tendsto (fun η => (-(t : ℂ)) • sol N (x η)) l (𝓝 (squareSelfenergy N t E)) := by
    have e : squareSelfenergy N t E = (-(t : ℂ)) • sol N (fun p => f (qOf N t E p)) := by
      ext i j
      simp only [squareSelfenergy, sol, Matrix.of_apply, Matrix.smul_apply, Matrix.neg_apply,
        smul_eq_mul, neg_mul_neg]
      rw [Matrix.mul_apply]
      simp only [Matrix.mul_diagonal, S, Matrix.of_apply]
      congr 1
      apply Finset.sum_congr rfl
      intro p _
      rw [Complex.conj_ofReal, psi_symm N p.val j.val]
      ring
    rw [e]
    have hc : Continuous (fun v : Fin N → ℂ => (-(t : ℂ)) • sol N v) := by
      unfold sol
      have h1 : Continuous (fun v : Fin N → ℂ => S N * Matrix.diagonal v * S N) :=
        (continuous_const.matrix_mul continuous_id.matrix_diagonal).matrix_mul continuous_const
      exact h1.neg.const_smul (-(t : ℂ))
    exact (hc.tendsto _).comp (tendsto_pi_nhds.mpr xlim)
  refine main.congr' ?_
  filter_upwards [hl] with η h
  rw [hx1 η h]

/-- **C166** (existence and uniqueness).  At any energy with a nonzero imaginary part, the
semi-infinite strip has exactly one matrix that propagates the decaying solutions. -/
theorem C166_unique (N : ℕ) {t : ℝ} (ht : t ≠ 0) (E η : ℝ) (hη : η ≠ 0) :
    ∃! F, Decaying N t (E + η * Complex.I) F := by
  have him : ∀ p : Fin N, (wOf N t (E + η * Complex.I) p).im ≠ 0 := by
    intro p
    rw [wOf_add N ht]
    simp [hη, ht]
  choose x hx h1 using fun p => exists_small _ (him p)
  refine ⟨sol N x, sol_decaying ht hx h1, ?_⟩
  intro G hG
  exact unique_decaying ht (by simpa using hη) hG (sol_decaying ht hx h1)

/-- **C166**.  For every width, positive hopping and real energy,
`square_selfenergy(width, hopping, energy)` is the retarded self-energy of the semi-infinite strip:
with `F(eta)` the matrix that multiplies decaying solutions at the energy `energy + i eta` from cell to
cell, it is the limit of `-hopping F(eta)` for `eta -> 0+`. -/
theorem C166_retarded (N : ℕ) {t : ℝ} (ht : 0 < t) (E : ℝ) (F : ℝ → Matrix (Fin N) (Fin N) ℂ)
    (hF : ∀ η : ℝ, 0 < η → Decaying N t (E + η * Complex.I) (F η)) :
    Tendsto (fun η => (-(t : ℂ)) • F η) (𝓝[>] 0) (𝓝 (squareSelfenergy N t E)) := by
  apply limit_aux ht.ne' E F
  · intro η h
    apply hF
    by_contra hc
    exact absurd h (not_lt.mpr (div_nonpos_of_nonpos_of_nonneg (not_lt.mp hc) ht.le))
  · filter_upwards [self_mem_nhdsWithin] with η h
    exact div_pos h ht
  · have : Tendsto (fun η : ℝ => η / t) (𝓝[>] 0) (𝓝 (0 / t)) :=
      (tendsto_id.mono_left nhdsWithin_le_nhds).div_const t
    simpa using this

/-- For negative hopping the function returns the advanced self-energy: the limit
from the other side of the real axis. -/
theorem C166_negative (N : ℕ) {t : ℝ} (ht : t < 0) (E : ℝ) (F : ℝ → Matrix (Fin N) (Fin N) ℂ)
    (hF : ∀ η : ℝ, η < 0 → Decaying N t (E + η * Complex.I) (F η)) :
    Tendsto (fun η => (-(t : ℂ)) • F η) (𝓝[<] 0) (𝓝 (squareSelfenergy N t E)) := by
  apply limit_aux ht.ne E F
  · intro η h
    apply hF
    by_contra hc
    exact absurd h (not_lt.mpr (div_nonpos_of_nonneg_of_nonpos (not_lt.mp hc) ht.le))
  · filter_upwards [self_mem_nhdsWithin] with η h
    exact div_pos_of_neg_of_neg h ht
  · have : Tendsto (fun η : ℝ => η / t) (𝓝[<] 0) (𝓝 (0 / t)) :=
      (tendsto_id.mono_left nhdsWithin_le_nhds).div_const t
    simpa using this

/-- **C166** (the equation).  For every nonzero hopping the self-energy of the strip is reproduced when one
cell is added to it: `Sigma (energy - H - Sigma) = hopping^2`. -/
theorem C166_equation (N : ℕ) {t : ℝ} (ht : t ≠ 0) (E : ℝ) :
    squareSelfenergy N t E * ((E : ℂ) • 1 - cellH N t - squareSelfenergy N t E) =
      ((t : ℂ) ^ 2) • 1 := by
  have htc : (t : ℂ) ≠ 0 := by exact_mod_cast ht
  have eS : squareSelfenergy N t E =
      S N * Matrix.diagonal (fun p : Fin N => t * f (qOf N t E p)) * S N := by
    ext i j
    rw [Matrix.mul_apply]
    simp only [squareSelfenergy, Matrix.of_apply, Matrix.mul_diagonal, S, Finset.mul_sum]
    apply Finset.sum_congr rfl
    intro p _
    rw [Complex.conj_ofReal, psi_symm N p.val j.val]
    ring
  have hH : cellH N t = S N * Matrix.diagonal (fun p : Fin N =>
      ((4 * t - 2 * t * Real.cos (Real.pi / (N + 1) * (p.val + 1)) : ℝ) : ℂ)) * S N := by
    rw [← cell_eig, Matrix.mul_assoc, S_sq, Matrix.mul_one]
  have e2 : (E : ℂ) • (1 : Matrix (Fin N) (Fin N) ℂ) =
      S N * Matrix.diagonal (fun _ => (E : ℂ)) * S N := by
    have : Matrix.diagonal (fun _ : Fin N => (E : ℂ)) = (E : ℂ) • 1 := by
      rw [← Matrix.diagonal_one, ← Matrix.diagonal_smul]
      congr 1
      funext p
      simp
    rw [this]
    simp [S_sq]
  rw [eS, hH, e2, ← Matrix.sub_mul, ← Matrix.mul_sub, ← Matrix.sub_mul, ← Matrix.mul_sub,
    Matrix.diagonal_sub, Matrix.diagonal_sub]
  set A := Matrix.diagonal (fun p : Fin N => (t : ℂ) * f (qOf N t E p))
  have : ∀ B : Matrix (Fin N) (Fin N) ℂ, S N * A * S N * (S N * B * S N) = S N * (A * B) * S N := by
    intro B
    calc S N * A * S N * (S N * B * S N) = S N * A * (S N * S N) * B * S N := by
          simp only [Matrix.mul_assoc]
      _ = _ := by rw [S_sq, Matrix.mul_one]; simp only [Matrix.mul_assoc]
  rw [this, Matrix.diagonal_mul_diagonal]
  have d : (fun p : Fin N => (t : ℂ) * f (qOf N t E p) * ((E : ℂ) -
      ((4 * t - 2 * t * Real.cos (Real.pi / (N + 1) * (p.val + 1)) : ℝ) : ℂ) -
      t * f (qOf N t E p))) = fun _ => (t : ℂ) ^ 2 := by
    funext p
    have h1 := f_root (qOf N t E p)
    have h2 := qOf_eq N ht E p
    have h3 : (E : ℂ) - ((4 * t - 2 * t * Real.cos (Real.pi / (N + 1) * (p.val + 1)) : ℝ) : ℂ) =
        t * ((qOf N t E p : ℝ) : ℂ) := by
      rw [h2]
      unfold wOf
      field_simp
    rw [h3]
    linear_combination -(t : ℂ) ^ 2 * h1
  rw [d]
  have : Matrix.diagonal (fun _ : Fin N => (t : ℂ) ^ 2) = ((t : ℂ) ^ 2) • 1 := by
    rw [← Matrix.diagonal_one, ← Matrix.diagonal_smul]
    congr 1
    funext p
    simp
  rw [this]
  simp [S_sq]

/-- The hypotheses of `C166_retarded` can be met for every strip, and the result for a chain at the
centre of its band is `-i hopping` (decay into the lead); for negative hopping it is
`+i |hopping|`, with the sign of a gain. -/
theorem C166_example : (∃ F : ℝ → Matrix (Fin 3) (Fin 3) ℂ,
      ∀ η : ℝ, 0 < η → Decaying 3 1 (((1 : ℝ) : ℂ) + η * Complex.I) (F η)) ∧
    squareSelfenergy 1 2 8 0 0 = -2 * Complex.I ∧
    squareSelfenergy 1 (-2) (-8) 0 0 = 2 * Complex.I := by
  classical
  refine ⟨⟨fun η => if h : η = 0 then 0 else (C166_unique 3 (t := 1) one_ne_zero 1 η h).choose,
    ?_⟩, ?_, ?_⟩
  · intro η h
    simp only [dif_neg h.ne']
    exact (C166_unique 3 (t := 1) one_ne_zero 1 η h.ne').choose_spec.1
  · have hc : Real.cos (Real.pi / (1 + 1)) = 0 := by
      rw [one_add_one_eq_two, Real.cos_pi_div_two]
    have hs : Real.sin (Real.pi / (1 + 1)) = 1 := by
      rw [one_add_one_eq_two, Real.sin_pi_div_two]
    have hq : qOf 1 2 8 0 = 0 := by simp [qOf, hc]; norm_num
    simp [squareSelfenergy, psi, hq, f, hs]
    rw [one_add_one_eq_two, div_self (by simp), one_mul]
  · have hc : Real.cos (Real.pi / (1 + 1)) = 0 := by
      rw [one_add_one_eq_two, Real.cos_pi_div_two]
    have hs : Real.sin (Real.pi / (1 + 1)) = 1 := by
      rw [one_add_one_eq_two, Real.sin_pi_div_two]
    have hq : qOf 1 (-2) (-8) 0 = 0 := by simp [qOf, hc]; norm_num
    simp [squareSelfenergy, psi, hq, f, hs]
    rw [one_add_one_eq_two, div_self (by simp), one_mul]

end Kwant.SquareSelf
