import Verif.Kpm.Corr
import Mathlib.Analysis.Calculus.Deriv.Star
import Mathlib.Analysis.Calculus.Deriv.Mul
import Mathlib.Analysis.Calculus.Deriv.Prod
import Mathlib.Analysis.SpecialFunctions.ExpDeriv

/-!
Model of kpm.py: `_velocity`; `fermi_distribution`; the theorems about them (C126).

Simplifications
* Exact complex arithmetic: a real Hamiltonian given as a matrix of real type would make the in-place product with imaginary numbers fail.
* The sparse matrix is the list of its entries (row, column, value); repeated entries are added by `tocsr`.
* `positions` is given as one list of coordinates per orbital, all of the same length `dim`.
-/

set_option linter.unusedSectionVars false

namespace Kwant.Kpm
open Finset
open Matrix hiding map_apply

variable {d : ℕ}

/-- `directions` (kpm.py l.1060) -/
def directionOf : Char → Option ℕ
  | 'x' => some 0
  | 'y' => some 1
  | 'z' => some 2
  | _ => none

/-- A sparse matrix in coordinate format. -/
abbrev Coo (d : ℕ) := List ((Fin d × Fin d) × ℂ)

/-- `tocsr`: repeated entries are added. -/
def Coo.toMatrix (l : Coo d) : Matrix (Fin d) (Fin d) ℂ := fun i j => (l.map fun e => if e.1 = (i, j) then e.2 else 0).sum

/-- The part of `_velocity` for a direction (kpm.py l.1064-1078); `KeyError` for other strings is `.index`. -/
noncomputable def velocity (ham : Coo d) (dim : ℕ) (pos : Fin d → ℕ → ℝ) (dir : Char) : Except KErr (Coo d) :=
  match directionOf dir with
  | none => .error .index
  | some k =>
    if k > dim then .error .value
    else if dim ≤ k then .error .index
    else .ok (ham.map fun e => (e.1, e.2 * (Complex.I * ((pos e.1.2 k - pos e.1.1 k : ℝ) : ℂ))))

/-- The positions of the orbitals of a system (kpm.py l.1070-1071): `norb` times the position of each site. -/
def orbPositions (norbs : List ℕ) (sitePos : ℕ → ℕ → ℝ) : List (ℕ → ℝ) :=
  (norbs.zipIdx.map fun p => List.replicate p.1 (sitePos p.2)).flatten

/-! ### Theorems -/

/-- The position operator. -/
def posOp (pos : Fin d → ℕ → ℝ) (k : ℕ) : Matrix (Fin d) (Fin d) ℂ := Matrix.diagonal fun i => ((pos i k : ℝ) : ℂ)

theorem toMatrix_map (l : Coo d) (f : Fin d → Fin d → ℂ) (i j : Fin d) :
    (Coo.toMatrix (l.map fun e => (e.1, e.2 * f e.1.1 e.1.2))) i j = Coo.toMatrix l i j * f i j := by
  unfold Coo.toMatrix
  induction l with
  | nil => simp
  | cons e l ih =>
    simp only [List.map_cons, List.sum_cons, add_mul]
    rw [ih]
    congr 1
    by_cases h : e.1 = (i, j)
    · rw [if_pos h, if_pos h, h]
    · rw [if_neg h, if_neg h, zero_mul]

/-- C126 (velocity).  The velocity operator for a direction that exists is `i [H, x]`, Hermitian if `H` is; the other directions and other strings are refused. -/
theorem C126_velocity (ham : Coo d) (dim : ℕ) (pos : Fin d → ℕ → ℝ) (dir : Char) :
    (∀ k, directionOf dir = some k → k < dim → ∃ v, velocity ham dim pos dir = .ok v ∧
      v.toMatrix = Complex.I • (ham.toMatrix * posOp pos k - posOp pos k * ham.toMatrix) ∧
      (ham.toMatrix.IsHermitian → v.toMatrix.IsHermitian)) ∧
    ((∀ k, directionOf dir = some k → dim ≤ k) → ∃ e, velocity ham dim pos dir = .error e) := by
  constructor
  · intro k hk hd
    have hv : velocity ham dim pos dir = .ok (ham.map fun e => (e.1, e.2 * (Complex.I * ((pos e.1.2 k - pos e.1.1 k : ℝ) : ℂ)))) := by
      unfold velocity
      rw [hk]
      simp only
      rw [if_neg (by omega), if_neg (by omega)]
    have hm : Coo.toMatrix (ham.map fun e => (e.1, e.2 * (Complex.I * ((pos e.1.2 k - pos e.1.1 k : ℝ) : ℂ)))) =
        Complex.I • (ham.toMatrix * posOp pos k - posOp pos k * ham.toMatrix) := by
      ext i j
      rw [toMatrix_map ham (fun i j => Complex.I * ((pos j k - pos i k : ℝ) : ℂ)), Matrix.smul_apply, Matrix.sub_apply]
      unfold posOp
      rw [Matrix.mul_diagonal, Matrix.diagonal_mul, smul_eq_mul]
      push_cast
      ring
    refine ⟨_, hv, hm, fun hH => ?_⟩
    rw [hm]
    have hp : (posOp pos k).IsHermitian := by
      unfold posOp Matrix.IsHermitian
      rw [diagonal_conjTranspose]
      congr 1
      funext i
      simp
    unfold Matrix.IsHermitian
    rw [conjTranspose_smul, conjTranspose_sub, conjTranspose_mul, conjTranspose_mul, hH.eq, hp.eq]
    rw [Complex.star_def, Complex.conj_I, neg_smul, ← smul_neg, neg_sub]
  · intro h
    unfold velocity
    cases hk : directionOf dir with
    | none => exact ⟨_, rfl⟩
    | some k =>
      simp only
      have := h k hk
      by_cases h1 : k > dim
      · rw [if_pos h1]; exact ⟨_, rfl⟩
      · rw [if_neg h1, if_pos this]; exact ⟨_, rfl⟩

/-- C126 (Ehrenfest).  The expectation value of the velocity is the rate of change of the expectation value of the position, for every solution of the
Schroedinger equation `i dψ/dt = H ψ`. -/
theorem C126_ehrenfest (ham : Coo d) (hH : ham.toMatrix.IsHermitian) (dim : ℕ) (pos : Fin d → ℕ → ℝ) (dir : Char) (k : ℕ) (hk : directionOf dir = some k) (hd : k < dim)
    (v : Coo d) (hv : velocity ham dim pos dir = .ok v) (ψ : ℝ → Vec d) (t : ℝ)
    (hψ : HasDerivAt ψ (-Complex.I • ham.toMatrix.mulVec (ψ t)) t) :
    HasDerivAt (fun s => vdot (ψ s) ((posOp pos k).mulVec (ψ s))) (vdot (ψ t) (v.toMatrix.mulVec (ψ t))) t := by
  obtain ⟨v', hv', hm, _⟩ := (C126_velocity ham dim pos dir).1 k hk hd
  rw [hv] at hv'
  injection hv' with hv'
  subst hv'
  rw [hm]
  have hi : ∀ i, HasDerivAt (fun s => ψ s i) ((-Complex.I • ham.toMatrix.mulVec (ψ t)) i) t := hasDerivAt_pi.mp hψ
  have hd : HasDerivAt (fun s => vdot (ψ s) ((posOp pos k).mulVec (ψ s)))
      (∑ i, (star ((-Complex.I • ham.toMatrix.mulVec (ψ t)) i) * ((pos i k : ℝ) * ψ t i) + star (ψ t i) * ((pos i k : ℝ) * (-Complex.I • ham.toMatrix.mulVec (ψ t)) i))) t := by
    have : (fun s => vdot (ψ s) ((posOp pos k).mulVec (ψ s))) = fun s => ∑ i, star (ψ s i) * (((pos i k : ℝ) : ℂ) * ψ s i) := by
      funext s
      unfold vdot posOp
      refine sum_congr rfl fun i _ => ?_
      rw [mulVec_diagonal]
    rw [this]
    exact HasDerivAt.fun_sum fun i _ => ((hi i).star.mul ((hi i).const_mul _))
  refine hd.congr_deriv ?_
  have e1 : ∑ i, (star ((-Complex.I • ham.toMatrix.mulVec (ψ t)) i) * ((pos i k : ℝ) * ψ t i) + star (ψ t i) * ((pos i k : ℝ) * (-Complex.I • ham.toMatrix.mulVec (ψ t)) i))
      = vdot (-Complex.I • ham.toMatrix.mulVec (ψ t)) ((posOp pos k).mulVec (ψ t)) + vdot (ψ t) ((posOp pos k).mulVec (-Complex.I • ham.toMatrix.mulVec (ψ t))) := by
    unfold vdot posOp
    rw [← sum_add_distrib]
    refine sum_congr rfl fun i _ => ?_
    rw [mulVec_diagonal, mulVec_diagonal]
  rw [e1, vdot_eq, vdot_eq, vdot_eq, star_smul, smul_dotProduct, star_mulVec, hH.eq, ← dotProduct_mulVec, mulVec_smul, dotProduct_smul, smul_mulVec, dotProduct_smul,
    sub_mulVec, dotProduct_sub, mulVec_mulVec, mulVec_mulVec]
  simp only [smul_eq_mul, star_neg, Complex.star_def, Complex.conj_I]
  ring

/-- C126 (positions).  In a system every orbital has the position of its site. -/
theorem C126_positions (norbs : List ℕ) (sitePos : ℕ → ℕ → ℝ) (s k : ℕ) (hs : s < norbs.length) (hk : k < norbs.getD s 0) :
    (orbPositions norbs sitePos)[(norbs.take s).sum + k]? = some (sitePos s) ∧ (orbPositions norbs sitePos).length = norbs.sum := by
  have gen : ∀ (l : List ℕ) (n s : ℕ), s < l.length → k < l.getD s 0 →
      (((l.zipIdx n).map fun p => List.replicate p.1 (sitePos p.2)).flatten)[(l.take s).sum + k]? = some (sitePos (n + s)) := by
    intro l
    induction l with
    | nil => intro n s hs; cases hs
    | cons x l ih =>
      intro n s hs hk
      rw [List.zipIdx_cons, List.map_cons, List.flatten_cons]
      cases s with
      | zero =>
        rw [List.getD_cons_zero] at hk
        simp only [List.take_zero, List.sum_nil, Nat.zero_add, Nat.add_zero]
        rw [List.getElem?_append_left (by simpa using hk), List.getElem?_replicate, if_pos hk]
      | succ s =>
        rw [List.getD_cons_succ] at hk
        rw [List.take_succ_cons, List.sum_cons, List.getElem?_append_right (by simp; omega), List.length_replicate,
          show x + (l.take s).sum + k - x = (l.take s).sum + k by omega, ih (n + 1) s (by simpa using hs) hk]
        congr 2
        omega
  constructor
  · have := gen norbs 0 s hs hk
    rw [Nat.zero_add] at this
    exact this
  · unfold orbPositions
    rw [List.length_flatten, List.map_map]
    have : ∀ (l : List ℕ) (n : ℕ), (List.map (List.length ∘ fun p => List.replicate p.1 (sitePos p.2)) (l.zipIdx n)) = l := by
      intro l
      induction l with
      | nil => intro n; rfl
      | cons x l ih => intro n; rw [List.zipIdx_cons, List.map_cons, ih]; simp
    rw [this]

/-- C126 (directions).  The code means to refuse a direction that does not exist with a `ValueError`, but for the next one (`'y'` in one dimension) it
compares with `>` instead of `>=` and indexing fails. -/
theorem C126_direction (ham : Coo d) (pos : Fin d → ℕ → ℝ) : velocity ham 1 pos 'y' = .error .index ∧ velocity ham 1 pos 'z' = .error .value := by
  constructor <;> rfl

/-- C126 (Fermi function).  Refused exactly for negative temperatures; otherwise between 0 and 1, decreasing in the energy,
and `f(μ + x) = 1 - f(μ - x)` for positive temperatures; at zero temperature a step, 0 at the chemical potential. -/
theorem C126_fermi (mu T : ℝ) :
    (T < 0 → ∀ E, fermi E mu T = .error .value) ∧
    (0 ≤ T → ∃ f : ℝ → ℝ, (∀ E, fermi E mu T = .ok (f E)) ∧ (∀ E, 0 ≤ f E ∧ f E ≤ 1) ∧ Antitone f ∧
      (0 < T → ∀ x, f (mu + x) = 1 - f (mu - x)) ∧ (T = 0 → ∀ E, f E = if E < mu then 1 else 0)) := by
  constructor
  · intro h E; unfold fermi; rw [if_pos h]
  · intro h
    rcases h.lt_or_eq with h | h
    · refine ⟨fun E => 1 / (1 + Real.exp ((E - mu) / T)), fun E => by unfold fermi; rw [if_neg (by linarith), if_neg h.ne'], fun E => ?_, ?_, fun _ x => ?_, fun h' => by linarith⟩
      · have := Real.exp_pos ((E - mu) / T)
        exact ⟨by positivity, by rw [div_le_one (by positivity)]; linarith⟩
      · intro E E' hE
        have h1 := Real.exp_pos ((E - mu) / T)
        apply one_div_le_one_div_of_le (by positivity)
        have : Real.exp ((E - mu) / T) ≤ Real.exp ((E' - mu) / T) := Real.exp_le_exp.mpr (by gcongr)
        linarith
      · have h1 : Real.exp ((mu + x - mu) / T) * Real.exp ((mu - x - mu) / T) = 1 := by
          rw [← Real.exp_add, show (mu + x - mu) / T + (mu - x - mu) / T = 0 by ring, Real.exp_zero]
        have h2 := Real.exp_pos ((mu + x - mu) / T)
        have h3 := Real.exp_pos ((mu - x - mu) / T)
        simp only
        rw [eq_sub_iff_add_eq, div_add_div _ _ (by positivity) (by positivity), div_eq_one_iff_eq (by positivity)]
        linear_combination -h1
    · subst h
      refine ⟨fun E => if E < mu then 1 else 0, fun E => by unfold fermi; rw [if_neg (lt_irrefl _), if_pos rfl]; simp only [sub_neg], fun E => ?_, ?_, fun h => absurd h (lt_irrefl _), fun _ E => rfl⟩
      · simp only; split <;> norm_num
      · intro E E' hE
        simp only
        by_cases h1 : E' < mu
        · rw [if_pos h1, if_pos (by linarith)]
        · rw [if_neg h1]; split <;> norm_num

/-- The hypotheses can be met: two sites at 0 and 1 with hopping `1`; the velocity is the Pauli matrix `-σ_y` up to the sign of the convention. -/
theorem C126_example : ∃ v, velocity (d := 2) [((0, 1), 1), ((1, 0), 1)] 1 (fun i _ => (i : ℕ)) 'x' = .ok v ∧ v.toMatrix = !![0, Complex.I; -Complex.I, 0] := by
  obtain ⟨v, h1, h2, _⟩ := (C126_velocity (d := 2) [((0, 1), 1), ((1, 0), 1)] 1 (fun i _ => (i : ℕ)) 'x').1 0 rfl one_pos
  refine ⟨v, h1, ?_⟩
  rw [h2]
  ext i j
  fin_cases i <;> fin_cases j <;> simp [Coo.toMatrix, posOp, Matrix.mul_apply, Fin.sum_univ_two, Matrix.diagonal]

end Kwant.Kpm
