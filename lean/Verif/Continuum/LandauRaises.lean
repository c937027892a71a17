import Verif.Continuum.LandauLadder

/-! C137: when `_evaluate_ladder_term` raises. -/

set_option linter.unusedSectionVars false

namespace Kwant.Continuum

/-- The loop of `_evaluate_ladder_term` does not raise. -/
def evalOk : List ℤ → ℤ → Bool
  | [], _ => true
  | m :: r, n =>
    if 0 < m then decide (0 ≤ rangeProd (n + 1) m.toNat) && evalOk r (n + m)
    else if m < 0 then (if n = 0 then true else decide (0 ≤ rangeProd (n + m + 1) (-m).toNat) && evalOk r (n + m))
    else evalOk r (n + m)

theorem pySqrt_bind (z : ℤ) (f : ℝ → Option ℝ) : ((pySqrt z).bind f).isSome = (decide (0 ≤ z) && (f (√(z : ℝ))).isSome) := by
  unfold pySqrt
  split
  · next h => simp [show ¬ 0 ≤ z by omega]
  · next h => simp [show 0 ≤ z by omega]

theorem evalLoop_isSome (r : List ℤ) (n : ℤ) (ret : ℝ) : (evalLoop r n ret).isSome = evalOk r n := by
  induction r generalizing n ret with
  | nil => rfl
  | cons m r ih =>
    unfold evalLoop evalOk
    by_cases h1 : 0 < m
    · rw [if_pos h1, if_pos h1, pySqrt_bind, ih]
    · rw [if_neg h1, if_neg h1]
      by_cases h2 : m < 0
      · rw [if_pos h2, if_pos h2]
        by_cases h3 : n = 0
        · rw [if_pos h3, if_pos h3]; rfl
        · rw [if_neg h3, if_neg h3, pySqrt_bind, ih]
      · rw [if_neg h2, if_neg h2, pySqrt_bind, ih]; simp

/-- All words of length `k`. -/
def allWords : ℕ → List (List Ladder)
  | 0 => [[]]
  | k + 1 => (allWords k).flatMap fun w => [.raise :: w, .lower :: w]

theorem mem_allWords (w : List Ladder) : w ∈ allWords w.length := by
  induction w with
  | nil => simp [allWords]
  | cons l w ih =>
    simp only [List.length_cons, allWords, List.mem_flatMap]
    exact ⟨w, ih, by cases l <;> simp⟩

theorem short_words : ((List.range 7).all fun L => (allWords L).all fun w => (List.range 6).all fun n =>
    decide ((n : ℤ) + net w < 0) || evalOk (ladderTerm w).reverse n) = true := by
  decide +kernel

/-- If the level is high enough, nothing gets negative. -/
theorem high_ok (r : List ℤ) (n : ℤ) (h : (r.map fun m => |m|).sum ≤ n) : evalOk r n = true := by
  induction r generalizing n with
  | nil => rfl
  | cons m r ih =>
    simp only [List.map_cons, List.sum_cons] at h
    have h0 : 0 ≤ (r.map fun m => |m|).sum := List.sum_nonneg (by simp)
    have hm := neg_abs_le m
    have hm' := abs_nonneg m
    have hr := ih (n + m) (by omega)
    unfold evalOk
    rw [hr]
    split
    · simp [rangeProd_nonneg (n + 1) m.toNat (by omega)]
    · split
      · split
        · rfl
        · simp [rangeProd_nonneg (n + m + 1) (-m).toNat (by omega)]
      · rfl

theorem abs_runs (w : List Ladder) : ((runsOf w).map fun m => |m|).sum = w.length := by
  induction w with
  | nil => rfl
  | cons l w ih =>
    rw [runsOf]
    cases hw : runsOf w with
    | nil => rw [hw] at ih; simp only [List.map_nil, List.sum_nil] at ih; simp only [consRun, List.length_cons]; push_cast; rw [← ih]; cases l <;> simp [Ladder.sign]
    | cons m r =>
      rw [hw] at ih
      simp only [List.map_cons, List.sum_cons] at ih
      rw [consRun]
      have hl : |l.sign| = 1 := by cases l <;> simp [Ladder.sign]
      split
      · next h =>
        simp only [List.map_cons, List.sum_cons, List.length_cons]
        have : |m + l.sign| = |m| + 1 := by
          cases l with
          | raise =>
            have : 0 < m := by simpa [Ladder.sign] using h
            simp only [Ladder.sign]; rw [abs_of_pos this, abs_of_pos (by omega)]
          | lower =>
            have : m < 0 := by simpa [Ladder.sign] using h
            simp only [Ladder.sign]; rw [abs_of_neg this, abs_of_neg (by omega)]; ring
        rw [this]; push_cast; omega
      · simp only [List.map_cons, List.sum_cons, List.length_cons, hl]; push_cast; omega

theorem short_ok (w : List Ladder) (n : ℕ) (hw : w.length ≤ 6) (hn : 0 ≤ (n : ℤ) + net w) : evalOk (ladderTerm w).reverse n = true := by
  by_cases h : n < 6
  · have h1 := List.all_eq_true.mp short_words w.length (List.mem_range.mpr (by omega))
    have h2 := List.all_eq_true.mp h1 w (mem_allWords w)
    have h3 := List.all_eq_true.mp h2 n (List.mem_range.mpr h)
    rw [Bool.or_eq_true, decide_eq_true_eq] at h3
    exact h3.resolve_left (by omega)
  · apply high_ok
    rw [List.map_reverse, List.sum_reverse]
    unfold ladderTerm
    split
    · simp
    · rw [abs_runs]; omega

/-- C137.  For products of up to six ladder operators that lead from a Landau level to a Landau level, `_evaluate_ladder_term` does not raise, whatever the level and the field. -/
theorem evaluate_no_error (w : List Ladder) (n : ℕ) (B : ℝ) (hw : w.length ≤ 6) (hn : 0 ≤ (n : ℤ) + (if B < 0 then - net w else net w)) :
    (evaluateLadderTerm (ladderTerm w) n B).isSome = true := by
  unfold evaluateLadderTerm
  rw [evalLoop_isSome]
  split
  · next hB =>
    rw [if_pos hB] at hn
    rw [← ladderTerm_swap]
    exact short_ok _ n (by simpa using hw) (by rw [net_swap]; exact hn)
  · next hB =>
    rw [if_neg hB] at hn
    exact short_ok _ n hw hn

/-- C137.  The bound is sharp: for `a†² a a† a³` and the Landau level 1 the function raises (the square root of -1), although the product leads to the level 0; the matrix element is 0.
So `discretize_landau` of a Hamiltonian with `k_x**7` gives a system that cannot be evaluated. -/
theorem evaluate_error (B : ℝ) (hB : 0 ≤ B) :
    let w := [.raise, .raise, .lower, .raise, .lower, .lower, .lower]
    evaluateLadderTerm (ladderTerm w) 1 B = none ∧ net w = -1 ∧ ladderOp w (Pi.single 1 1) 0 = 0 := by
  intro w
  refine ⟨?_, by decide, ?_⟩
  · rw [← Option.not_isSome_iff_eq_none]
    unfold evaluateLadderTerm
    rw [evalLoop_isSome, if_neg (not_lt.mpr hB)]
    decide
  · have h : ladderOp [.lower, .lower, .lower] (Pi.single 1 1) = 0 := by
      have := lower_iter_zero 1 1 3 (by norm_num)
      rw [lvl_one] at this
      exact this
    change raiseOp (raiseOp (lowerOp (raiseOp (ladderOp [.lower, .lower, .lower] (Pi.single 1 1))))) 0 = 0
    rw [h]; simp [raiseOp]

end Kwant.Continuum
