import Verif.Leads.Phs
import Mathlib.Analysis.SpecialFunctions.Trigonometric.Bounds

/-!
C155: the branch cut of the square root in `phs_symmetrization` (kwant/physics/leads.py l.533-542) stays away from all eigenvalues, so that eigenvalues that are
nearly equal have nearly equal roots.
-/

set_option linter.unusedSectionVars false

namespace Kwant.Leads
open Matrix Complex

variable {n : ℕ}

theorem arg_of_angle {z : ℂ} (hz : z ≠ 0) {s α : ℝ} (hα : α ∈ Set.Ioc (-Real.pi) Real.pi) {m : ℤ} (h : z.arg + s = α + m * (2 * Real.pi)) :
    (z * cexp (I * s)).arg = α := by
  have h1 : z * cexp (I * s) = ((‖z‖ : ℝ) : ℂ) * (Complex.cos α + Complex.sin α * I) := by
    rw [← Complex.exp_mul_I]
    conv_lhs => rw [← Complex.norm_mul_exp_arg_mul_I z]
    rw [mul_assoc, ← Complex.exp_add]
    congr 1
    rw [Complex.exp_eq_exp_iff_exists_int]
    refine ⟨m, ?_⟩
    have h2 : ((z.arg : ℝ) : ℂ) + s = α + m * (2 * Real.pi) := by exact_mod_cast h
    calc ((z.arg : ℝ) : ℂ) * I + I * s = (((z.arg : ℝ) : ℂ) + s) * I := by ring
      _ = _ := by rw [h2]; ring
  rw [h1, Complex.arg_mul_cos_add_sin_mul_I (norm_pos_iff.mpr hz) hα]

/-- The largest of `k + 1` numbers is at least their average. -/
theorem avg_le {k : ℕ} {f : Fin (k + 1) → ℝ} {i : Fin (k + 1)} (hi : ∀ j, f j ≤ f i) {S : ℝ} (hS : ∑ j, f j = S) : S / (k + 1) ≤ f i := by
  rw [div_le_iff₀ (by positivity), ← hS]
  calc ∑ j, f j ≤ ∑ _j : Fin (k + 1), f i := Finset.sum_le_sum fun j _ => hi j
    _ = f i * (k + 1) := by rw [Finset.sum_const, Finset.card_univ, Fintype.card_fin, nsmul_eq_mul]; push_cast; ring

/-- The gaps between points on a circle add up to its circumference. -/
theorem gaps_sum {k : ℕ} (p : Fin (k + 1) → ℝ) (c : ℝ) :
    ∑ i : Fin (k + 1), (if h : i.val + 1 < k + 1 then p ⟨i.val + 1, h⟩ - p i else p 0 + c - p i) = c := by
  have h1 : ∀ i : Fin (k + 1), (if h : i.val + 1 < k + 1 then p ⟨i.val + 1, h⟩ - p i else p 0 + c - p i) =
      (if h : i.val + 1 < k + 1 then p ⟨i.val + 1, h⟩ else p 0 + c) - p i := by
    intro i
    split <;> ring
  simp only [h1]
  rw [Finset.sum_sub_distrib, Fin.sum_univ_castSucc, Fin.sum_univ_succ p]
  have h2 : ∀ i : Fin k, (if h : (i.castSucc : Fin (k + 1)).val + 1 < k + 1 then p ⟨(i.castSucc : Fin (k + 1)).val + 1, h⟩ else p 0 + c) = p i.succ := by
    intro i
    rw [dif_pos (by simp)]
    rfl
  have h3 : (if h : (Fin.last k).val + 1 < k + 1 then p ⟨(Fin.last k).val + 1, h⟩ else p 0 + c) = p 0 + c := dif_neg (by simp)
  rw [h3]
  simp only [h2]
  ring

/-- C155: every eigenvalue stays at least the angle `π / (k + 1)` away from the branch cut, where `k + 1` is the number of wave functions. -/
theorem C155_cut {e : ModeNum n} (he : e.Ok) (hp : e.PhsOk) {k : ℕ} (vals : Fin (k + 1) → ℂ) (h0 : ∀ j, vals j ≠ 0) (j : Fin (k + 1)) :
    |(vals j * cexp (I * branchShift e vals)).arg| ≤ Real.pi - Real.pi / (k + 1) := by
  set ang : Fin (k + 1) → ℝ := fun i => (vals i).arg with hang
  set p : Fin (k + 1) → ℝ := ang ∘ e.argsort ang with hpd
  set dph : Fin (k + 1) → ℝ := fun i => if h : i.val + 1 < k + 1 then p ⟨i.val + 1, h⟩ - p i else p 0 + 2 * Real.pi - p i with hdph
  set i := e.argmax dph with hi
  have hs : branchShift e vals = -Real.pi - (p i + dph i / 2) := rfl
  have hmono : Monotone p := he.argsort ang
  have hmax : ∀ j, dph j ≤ dph i := hp.argmax dph
  have hD : 2 * Real.pi / (k + 1) ≤ dph i := avg_le hmax (gaps_sum p (2 * Real.pi))
  have hpi := Real.pi_pos
  have hk : (0 : ℝ) < k + 1 := by positivity
  have hD' : Real.pi / (k + 1) ≤ dph i / 2 := by
    have : 2 * Real.pi / (k + 1) = 2 * (Real.pi / (k + 1)) := by ring
    rw [this] at hD
    linarith
  have hDpos : 0 < dph i := lt_of_lt_of_le (by positivity) hD
  have hlow : ∀ l, -Real.pi < p l := fun l => Complex.neg_pi_lt_arg _
  have hup : ∀ l, p l ≤ Real.pi := fun l => Complex.arg_le_pi _
  obtain ⟨l, hl⟩ : ∃ l, p l = (vals j).arg := ⟨(e.argsort ang).symm j, by simp [hpd, hang]⟩
  have hspan : p i + dph i ≤ p 0 + 2 * Real.pi := by
    rw [hdph]
    dsimp only
    split
    · rename_i h
      have := hup ⟨i.val + 1, h⟩
      have := hlow 0
      linarith
    · linarith
  rcases le_or_gt l i with hli | hli
  · -- below the gap
    have h1 : p l ≤ p i := hmono hli
    have h2 : p 0 ≤ p l := hmono (Fin.zero_le l)
    have ha : (vals j * cexp (I * branchShift e vals)).arg = p l - (p i + dph i / 2) + Real.pi := by
      refine arg_of_angle (h0 j) (m := -1) ⟨by linarith, by linarith⟩ ?_
      rw [hs, ← hl]
      push_cast
      ring
    rw [ha, abs_le]
    constructor <;> linarith
  · -- above the gap
    have hik : i.val + 1 < k + 1 := by
      have := l.isLt
      have : i.val < l.val := hli
      omega
    have hd : dph i = p ⟨i.val + 1, hik⟩ - p i := dif_pos hik
    have h1 : p ⟨i.val + 1, hik⟩ ≤ p l := hmono (by
      rw [Fin.le_def]
      exact hli)
    have h2 := hup l
    have h3 := hlow i
    have ha : (vals j * cexp (I * branchShift e vals)).arg = p l - (p i + dph i / 2) - Real.pi := by
      refine arg_of_angle (h0 j) (m := 0) ⟨by linarith, by linarith⟩ ?_
      rw [hs, ← hl]
      push_cast
      ring
    rw [ha, abs_le]
    constructor <;> linarith

theorem exp_sum_norm {a b : ℝ} : ‖cexp (a * I) + cexp (b * I)‖ = 2 * |Real.cos ((a - b) / 2)| := by
  have h1 : cexp (a * I) + cexp (b * I) = cexp (((a + b) / 2 : ℝ) * I) * ((2 * Real.cos ((a - b) / 2) : ℝ) : ℂ) := by
    push_cast
    rw [Complex.two_cos, mul_add, ← Complex.exp_add, ← Complex.exp_add]
    congr 2 <;> ring
  rw [h1, norm_mul, Complex.norm_exp_ofReal_mul_I, one_mul, Complex.norm_real, Real.norm_eq_abs, abs_mul, abs_two]

/-- C155: the roots of two eigenvalues differ by at most `(k + 1) / 2` times the difference of the eigenvalues, where `k + 1` is the number of wave functions. -/
theorem C155_roots {e : ModeNum n} (he : e.Ok) (hp : e.PhsOk) {k : ℕ} (vals : Fin (k + 1) → ℂ) (h1 : ∀ j, ‖vals j‖ = 1) (i j : Fin (k + 1)) :
    ‖sqrtVals e vals i - sqrtVals e vals j‖ ≤ (k + 1) / 2 * ‖vals i - vals j‖ := by
  have h0 : ∀ j, vals j ≠ 0 := by
    intro j hj
    have := h1 j
    rw [hj, norm_zero] at this
    exact zero_ne_one this
  set s := branchShift e vals with hs
  set α : Fin (k + 1) → ℝ := fun j => (vals j * cexp (I * s)).arg with hα
  have hcut : ∀ j, |α j| ≤ Real.pi - Real.pi / (k + 1) := C155_cut he hp vals h0
  have hz : ∀ j, vals j * cexp (I * s) = cexp (α j * I) := by
    intro j
    have := Complex.norm_mul_exp_arg_mul_I (vals j * cexp (I * s))
    rw [norm_mul, h1, one_mul, show I * (s : ℂ) = s * I by ring, Complex.norm_exp_ofReal_mul_I, Complex.ofReal_one, one_mul] at this
    rw [← show I * (s : ℂ) = s * I by ring] at this
    exact this.symm
  have hroot : ∀ j, sqrtVals e vals j = cexp ((α j / 2 : ℝ) * I) * cexp (-(1 / 2 : ℂ) * I * s) := by
    intro j
    have : sqrtVals e vals j = (vals j * cexp (I * s)) ^ (1 / 2 : ℂ) * cexp (-(1 / 2 : ℂ) * I * s) := rfl
    rw [this, hz, Complex.cpow_def_of_ne_zero (Complex.exp_ne_zero _)]
    congr 2
    have hb := abs_le.mp (hcut j)
    have hpi := Real.pi_pos
    have hpk : 0 < Real.pi / (k + 1) := by positivity
    rw [Complex.log_exp (by simp; linarith) (by simp; linarith)]
    push_cast
    ring
  have hnorm : ‖cexp (-(1 / 2 : ℂ) * I * s)‖ = 1 := by
    rw [show -(1 / 2 : ℂ) * I * s = ((-(s / 2) : ℝ) : ℂ) * I by push_cast; ring, Complex.norm_exp_ofReal_mul_I]
  have hprod : ‖vals i - vals j‖ = ‖sqrtVals e vals i - sqrtVals e vals j‖ * ‖cexp ((α i / 2 : ℝ) * I) + cexp ((α j / 2 : ℝ) * I)‖ := by
    rw [hroot, hroot, ← sub_mul, norm_mul, hnorm, mul_one, ← norm_mul]
    have h2 : ‖vals i - vals j‖ = ‖(vals i - vals j) * cexp (I * s)‖ := by
      rw [norm_mul, show I * (s : ℂ) = s * I by ring, Complex.norm_exp_ofReal_mul_I, mul_one]
    rw [h2, sub_mul, hz, hz]
    congr 1
    have h3 : ∀ a : ℝ, cexp (a * I) = cexp ((a / 2 : ℝ) * I) * cexp ((a / 2 : ℝ) * I) := by
      intro a
      rw [← Complex.exp_add]
      congr 1
      push_cast
      ring
    rw [h3 (α i), h3 (α j)]
    ring
  have hsum : 2 / ((k : ℝ) + 1) ≤ ‖cexp ((α i / 2 : ℝ) * I) + cexp ((α j / 2 : ℝ) * I)‖ := by
    rw [exp_sum_norm]
    have hpi := Real.pi_pos
    have hk : (0 : ℝ) < k + 1 := by positivity
    set x : ℝ := Real.pi / (k + 1) with hx
    have hxpos : 0 < x := by positivity
    have hxpi : x ≤ Real.pi := by
      rw [hx, div_le_iff₀ hk]
      nlinarith [(Nat.cast_nonneg k : (0 : ℝ) ≤ k)]
    have hi' := abs_le.mp (hcut i)
    have hj' := abs_le.mp (hcut j)
    have hd : |(α i / 2 - α j / 2) / 2| ≤ Real.pi / 2 - x / 2 := by
      rw [abs_le]
      constructor <;> linarith
    have hc : Real.cos (Real.pi / 2 - x / 2) ≤ Real.cos ((α i / 2 - α j / 2) / 2) := by
      rw [← Real.cos_abs ((α i / 2 - α j / 2) / 2)]
      exact Real.cos_le_cos_of_nonneg_of_le_pi (abs_nonneg _) (by linarith) hd
    rw [Real.cos_pi_div_two_sub] at hc
    have hj2 := Real.mul_le_sin (x := x / 2) (by linarith) (by linarith)
    have h5 : 2 / Real.pi * (x / 2) = 1 / (k + 1) := by
      rw [hx]
      field_simp
    rw [h5] at hj2
    have h6 : 1 / ((k : ℝ) + 1) ≤ |Real.cos ((α i / 2 - α j / 2) / 2)| := (hj2.trans hc).trans (le_abs_self _)
    have : (2 : ℝ) / (k + 1) = 2 * (1 / (k + 1)) := by ring
    rw [this]
    linarith
  have hk : (0 : ℝ) < k + 1 := by positivity
  have h7 : ‖sqrtVals e vals i - sqrtVals e vals j‖ * (2 / ((k : ℝ) + 1)) ≤ ‖vals i - vals j‖ := by
    rw [hprod]
    exact mul_le_mul_of_nonneg_left hsum (norm_nonneg _)
  calc ‖sqrtVals e vals i - sqrtVals e vals j‖ = ((k : ℝ) + 1) / 2 * (‖sqrtVals e vals i - sqrtVals e vals j‖ * (2 / ((k : ℝ) + 1))) := by field_simp
    _ ≤ ((k : ℝ) + 1) / 2 * ‖vals i - vals j‖ := mul_le_mul_of_nonneg_left h7 (by positivity)

end Kwant.Leads
