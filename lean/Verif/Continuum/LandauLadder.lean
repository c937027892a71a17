import Verif.Continuum.LandauSpec
import Mathlib.Tactic.Ring
import Mathlib.Tactic.Linarith
import Mathlib.Tactic.LinearCombination
import Mathlib.Data.Nat.Factorial.Basic

/-! C136: the ladder operators, the commutator, `_ladder_term` and `_evaluate_ladder_term`. -/

set_option linter.unusedSectionVars false

namespace Kwant.Continuum

/-! ### Linearity and the commutator -/

theorem lowerOp_smul (c : ℂ) (φ : ℕ → ℂ) : lowerOp (c • φ) = c • lowerOp φ := by
  funext n; simp only [lowerOp, Pi.smul_apply, smul_eq_mul]; ring

theorem raiseOp_smul (c : ℂ) (φ : ℕ → ℂ) : raiseOp (c • φ) = c • raiseOp φ := by
  funext n; cases n <;> simp only [raiseOp, Pi.smul_apply, smul_eq_mul] <;> ring

theorem lowerOp_add (φ χ : ℕ → ℂ) : lowerOp (φ + χ) = lowerOp φ + lowerOp χ := by
  funext n; simp only [lowerOp, Pi.add_apply]; ring

theorem raiseOp_add (φ χ : ℕ → ℂ) : raiseOp (φ + χ) = raiseOp φ + raiseOp χ := by
  funext n; cases n <;> simp only [raiseOp, Pi.add_apply] <;> ring

theorem lowerOp_zero : lowerOp 0 = 0 := by funext n; simp [lowerOp]
theorem raiseOp_zero : raiseOp 0 = 0 := by funext n; cases n <;> simp [raiseOp]

theorem sqrt_sq_succ (n : ℕ) : ((√((n : ℝ) + 1) : ℝ) : ℂ) * (√((n : ℝ) + 1) : ℝ) = n + 1 := by
  rw [← Complex.ofReal_mul, Real.mul_self_sqrt (by positivity)]; push_cast; ring

/-- `a a† - a† a = 1` -/
theorem ladder_commutator (φ : ℕ → ℂ) : lowerOp (raiseOp φ) - raiseOp (lowerOp φ) = φ := by
  funext n
  cases n with
  | zero =>
    simp only [Pi.sub_apply, lowerOp, raiseOp, sub_zero, ← mul_assoc, sqrt_sq_succ]; simp
  | succ n =>
    simp only [Pi.sub_apply, lowerOp, raiseOp, ← mul_assoc, sqrt_sq_succ]
    push_cast; ring

/-- C136.  The two momenta in the plane satisfy `[k_0, k_1] = -i B`, for every field, of either sign. -/
theorem landau_commutator (B : ℝ) (φ : ℕ → ℂ) : kOp B .k0 (kOp B .k1 φ) - kOp B .k1 (kOp B .k0 φ) = (-(Complex.I * B)) • φ := by
  have hs : ((√(|B| / 2) : ℝ) : ℂ) * (√(|B| / 2) : ℝ) = (|B| / 2 : ℝ) := by
    rw [← Complex.ofReal_mul, Real.mul_self_sqrt (by positivity)]
  have hc := ladder_commutator φ
  set s : ℂ := ((√(|B| / 2) : ℝ) : ℂ) with hsdef
  have e0 : ∀ χ : ℕ → ℂ, kOp B .k0 χ = s • (raiseOp χ + lowerOp χ) := fun χ => by funext n; simp [kOp, hsdef]
  have e1 : ∀ χ : ℕ → ℂ, kOp B .k1 χ = ((if B < 0 then -1 else 1) * (Complex.I * s)) • (lowerOp χ + (-1 : ℂ) • raiseOp χ) := fun χ => by
    funext n; simp only [kOp, hsdef, Pi.smul_apply, Pi.add_apply, smul_eq_mul]; ring
  simp only [e0, e1, lowerOp_smul, raiseOp_smul, lowerOp_add, raiseOp_add]
  have hB : ((if B < 0 then -1 else 1 : ℂ)) * (|B| : ℝ) = B := by
    split
    · next h => rw [abs_of_neg h]; push_cast; ring
    · next h => rw [abs_of_nonneg (not_lt.mp h)]; ring
  funext n
  have hcn := congrFun hc n
  simp only [Pi.sub_apply, Pi.smul_apply, Pi.add_apply, smul_eq_mul] at hcn ⊢
  rw [← hB]
  push_cast at hs ⊢
  linear_combination (2 * (if B < 0 then -1 else 1) * Complex.I * s * s) * (-hcn) + (-2 * (if B < 0 then -1 else 1) * Complex.I * φ n) * hs

/-! ### Runs -/

/-- The operator of one entry of the tuple. -/
noncomputable def runOp (m : ℤ) (φ : ℕ → ℂ) : ℕ → ℂ := if 0 < m then raiseOp^[m.toNat] φ else lowerOp^[(-m).toNat] φ

theorem runOp_sign (l : Ladder) (φ : ℕ → ℂ) : runOp l.sign φ = ladOp l φ := by
  cases l <;> simp [runOp, Ladder.sign, ladOp]

theorem runOp_consRun (l : Ladder) (r : List ℤ) (φ : ℕ → ℂ) : (consRun l r).foldr runOp φ = ladOp l (r.foldr runOp φ) := by
  cases r with
  | nil => simp [consRun, runOp_sign]
  | cons m r =>
    rw [consRun]
    split
    · next h =>
      simp only [List.foldr_cons]
      cases l with
      | raise =>
        have hm : 0 < m := by simpa [Ladder.sign] using h
        change runOp (m + 1) (r.foldr runOp φ) = raiseOp (runOp m (r.foldr runOp φ))
        unfold runOp
        rw [if_pos hm, if_pos (show 0 < m + 1 by omega), show (m + 1).toNat = m.toNat + 1 by omega, Function.iterate_succ_apply']
      | lower =>
        have hm : m < 0 := by simpa [Ladder.sign] using h
        change runOp (m + -1) (r.foldr runOp φ) = lowerOp (runOp m (r.foldr runOp φ))
        unfold runOp
        rw [if_neg (show ¬ 0 < m by omega), if_neg (show ¬ 0 < m + -1 by omega), show (-(m + -1)).toNat = (-m).toNat + 1 by omega, Function.iterate_succ_apply']
    · simp [runOp_sign]

theorem runs_op (w : List Ladder) (φ : ℕ → ℂ) : (ladderTerm w).foldr runOp φ = ladderOp w φ := by
  unfold ladderTerm
  split
  · next h => subst h; simp [runOp, ladderOp]
  · clear * -
    unfold ladderOp
    induction w with
    | nil => rfl
    | cons l w ih => rw [runsOf, runOp_consRun, ih]; rfl

/-- The change of the Landau level. -/
theorem net_cons (l : Ladder) (w : List Ladder) : net (l :: w) = l.sign + net w := by
  have hc : ∀ r : List ℤ, (consRun l r).sum = l.sign + r.sum := by
    intro r
    cases r with
    | nil => simp [consRun]
    | cons m r => rw [consRun]; split <;> simp <;> ring
  unfold net ladderTerm
  simp only [reduceCtorEq, if_false, runsOf, hc]
  split
  · next h => subst h; simp [runsOf]
  · rfl

theorem net_nil : net [] = 0 := by simp [net, ladderTerm]

/-- Swapping raising and lowering operators. -/
def Ladder.swap : Ladder → Ladder
  | .raise => .lower
  | .lower => .raise

theorem ladderTerm_swap (w : List Ladder) : ladderTerm (w.map Ladder.swap) = (ladderTerm w).map fun i => -i := by
  unfold ladderTerm
  by_cases h : w = []
  · subst h; simp
  · rw [if_neg h, if_neg (by simpa using h)]
    clear h
    induction w with
    | nil => rfl
    | cons l w ih =>
      rw [List.map_cons, runsOf, runsOf, ih]
      have hs : l.swap.sign = -l.sign := by cases l <;> rfl
      cases runsOf w with
      | nil => simp [consRun, hs]
      | cons m r =>
        simp only [List.map_cons, consRun, hs, neg_mul_neg]
        split
        · simp; ring
        · simp

theorem net_swap (w : List Ladder) : net (w.map Ladder.swap) = - net w := by
  unfold net; rw [ladderTerm_swap]
  induction ladderTerm w with
  | nil => rfl
  | cons a l ih => simp only [List.map_cons, List.sum_cons, ih]; ring

/-! ### Basis states -/

/-- The basis state with a coefficient; zero for a negative level. -/
noncomputable def lvl (n : ℤ) (ret : ℝ) : ℕ → ℂ := fun k => if (k : ℤ) = n then (ret : ℂ) else 0

theorem lvl_zero (n : ℤ) : lvl n 0 = 0 := by funext k; simp [lvl]

theorem lvl_neg (n : ℤ) (hn : n < 0) (ret : ℝ) : lvl n ret = 0 := by
  funext k; simp only [lvl, Pi.zero_apply]; rw [if_neg (by omega)]

theorem raise_lvl (n : ℕ) (ret : ℝ) : raiseOp (lvl n ret) = lvl (n + 1) (ret * √((n : ℝ) + 1)) := by
  funext k
  cases k with
  | zero => simp only [raiseOp, lvl]; rw [if_neg (by push_cast; omega)]
  | succ k =>
    simp only [raiseOp, lvl]
    by_cases h : (k : ℤ) = n
    · have hk : k = n := by omega
      subst hk
      simp only [if_true]; rw [if_pos (by push_cast; ring)]; push_cast; ring
    · rw [if_neg h, if_neg (by push_cast; omega), mul_zero]

theorem lower_lvl (n : ℕ) (ret : ℝ) : lowerOp (lvl n ret) = lvl ((n : ℤ) - 1) (ret * √(n : ℝ)) := by
  funext k
  simp only [lowerOp, lvl]
  by_cases h : (k : ℤ) + 1 = n
  · have hn : n = k + 1 := by omega
    subst hn
    rw [if_pos (by push_cast; ring), if_pos (by push_cast; ring)]; push_cast; ring
  · rw [if_neg (by push_cast; omega), if_neg (by omega), mul_zero]

theorem rangeProd_nonneg (lo : ℤ) (k : ℕ) (h : 0 ≤ lo) : 0 ≤ rangeProd lo k := by
  induction k with
  | zero => simp [rangeProd]
  | succ k ih => rw [rangeProd]; positivity

theorem rangeProd_left (lo : ℤ) (k : ℕ) : rangeProd lo (k + 1) = lo * rangeProd (lo + 1) k := by
  induction k generalizing lo with
  | zero => simp [rangeProd]
  | succ k ih =>
    rw [rangeProd, ih lo, rangeProd]; push_cast; ring

theorem rangeProd_zero (lo : ℤ) (k : ℕ) (h1 : lo ≤ 0) (h2 : 0 < lo + k) : rangeProd lo k = 0 := by
  induction k with
  | zero => simp at h2; omega
  | succ k ih =>
    rw [rangeProd]
    by_cases h : lo + k = 0
    · rw [h, mul_zero]
    · rw [ih (by push_cast at h2; omega), zero_mul]

theorem raise_iter (n : ℕ) (ret : ℝ) (k : ℕ) : raiseOp^[k] (lvl n ret) = lvl (n + k) (ret * √(rangeProd (n + 1) k : ℝ)) := by
  induction k with
  | zero => simp [rangeProd]
  | succ k ih =>
    rw [Function.iterate_succ_apply', ih]
    have := raise_lvl (n + k) (ret * √(rangeProd (n + 1) k : ℝ))
    push_cast at this ⊢
    rw [this, rangeProd]
    have h0 : (0 : ℝ) ≤ (rangeProd ((n : ℤ) + 1) k : ℝ) := by exact_mod_cast rangeProd_nonneg _ _ (by omega)
    push_cast
    rw [Real.sqrt_mul h0, mul_assoc, add_assoc (n : ℤ) k 1, show (n : ℝ) + 1 + k = n + k + 1 by ring]

theorem lower_iter (n : ℕ) (ret : ℝ) (k : ℕ) (hk : k ≤ n) : lowerOp^[k] (lvl n ret) = lvl ((n : ℤ) - k) (ret * √(rangeProd ((n : ℤ) - k + 1) k : ℝ)) := by
  induction k with
  | zero => simp [rangeProd]
  | succ k ih =>
    rw [Function.iterate_succ_apply', ih (by omega)]
    have := lower_lvl (n - k) (ret * √(rangeProd ((n : ℤ) - k + 1) k : ℝ))
    rw [Nat.cast_sub (by omega : k ≤ n), Nat.cast_sub (by omega : k ≤ n)] at this
    rw [this, rangeProd_left]
    have h0 : (0 : ℝ) ≤ (((n : ℤ) - (k + 1 : ℕ) + 1 : ℤ) : ℝ) := by exact_mod_cast (by push_cast; omega : (0 : ℤ) ≤ (n : ℤ) - (k + 1 : ℕ) + 1)
    rw [Int.cast_mul, Real.sqrt_mul h0]
    push_cast
    congr 1
    · ring
    · rw [show (n : ℝ) - (k + 1) + 1 = n - k by ring, show (n : ℤ) - (k + 1) + 1 + 1 = (n : ℤ) - k + 1 by ring]; ring

theorem lower_iter_zero (n : ℕ) (ret : ℝ) (k : ℕ) (hk : n < k) : lowerOp^[k] (lvl n ret) = 0 := by
  have hz : ∀ j, lowerOp^[j] (0 : ℕ → ℂ) = 0 := fun j => Function.iterate_fixed lowerOp_zero j
  have h1 := lower_iter n ret n (le_refl _)
  have h2 : lowerOp^[n + 1] (lvl n ret) = 0 := by
    rw [Function.iterate_succ_apply', h1, sub_self]
    have := lower_lvl 0 (ret * √(rangeProd (0 + 1) n : ℝ))
    simp only [Nat.cast_zero] at this ⊢
    rw [this]; exact lvl_neg _ (by norm_num) _
  obtain ⟨j, rfl⟩ := Nat.exists_eq_add_of_le hk
  rw [show n.succ + j = j + (n + 1) by omega, Function.iterate_add_apply, h2, hz]

theorem runOp_zero (m : ℤ) : runOp m 0 = 0 := by
  unfold runOp; split
  · exact Function.iterate_fixed raiseOp_zero _
  · exact Function.iterate_fixed lowerOp_zero _

theorem foldl_runOp_zero (r : List ℤ) : r.foldl (fun φ m => runOp m φ) (0 : ℕ → ℂ) = 0 := by
  induction r with
  | nil => rfl
  | cons m r ih => rw [List.foldl_cons, runOp_zero, ih]

theorem evalLoop_spec (r : List ℤ) (n : ℤ) (ret v : ℝ) (hn : n < 0 → ret = 0) (h : evalLoop r n ret = some v) (k : ℕ) (hk : (k : ℤ) = n + r.sum) :
    r.foldl (fun φ m => runOp m φ) (lvl n ret) k = v := by
  induction r generalizing n ret with
  | nil =>
    simp only [evalLoop, Option.some.injEq] at h
    subst h
    simp only [List.foldl_nil, lvl, List.sum_nil, add_zero] at hk ⊢
    rw [if_pos hk]
  | cons m r ih =>
    rw [List.foldl_cons]
    have hk' : (k : ℤ) = n + m + r.sum := by rw [hk, List.sum_cons]; ring
    have step : ∀ q : ℝ, evalLoop r (n + m) (ret * q) = some v → (n + m < 0 → ret * q = 0) → runOp m (lvl n ret) = lvl (n + m) (ret * q) →
        r.foldl (fun φ m => runOp m φ) (runOp m (lvl n ret)) k = v := by
      intro q h1 h2 h3
      rw [h3]; exact ih _ _ h2 h1 hk'
    unfold evalLoop at h
    split at h
    · next hm =>
      obtain ⟨q, hq, h⟩ := Option.bind_eq_some_iff.mp h
      apply step q h
      · intro hneg; rw [hn (by omega), zero_mul]
      · by_cases hneg : n < 0
        · rw [hn hneg, zero_mul, lvl_zero, lvl_zero, runOp_zero]
        · unfold pySqrt at hq
          split at hq
          · cases hq
          · injection hq with hq
            subst hq
            obtain ⟨n, rfl⟩ := Int.eq_ofNat_of_zero_le (not_lt.mp hneg)
            unfold runOp
            rw [if_pos hm, raise_iter, show ((m.toNat : ℕ) : ℤ) = m by omega]
    · next hm =>
      split at h
      · next hm' =>
        split at h
        · next h0 =>
          injection h with h
          subst h; subst h0
          have : runOp m (lvl 0 ret) = 0 := by
            unfold runOp
            rw [if_neg hm]
            exact lower_iter_zero 0 ret _ (by omega)
          rw [this, foldl_runOp_zero]; simp
        · next h0 =>
          obtain ⟨q, hq, h⟩ := Option.bind_eq_some_iff.mp h
          unfold pySqrt at hq
          split at hq
          · cases hq
          · next hsq =>
            injection hq with hq
            by_cases hneg : n < 0
            · apply step q h
              · intro _; rw [hn hneg, zero_mul]
              · rw [hn hneg, zero_mul, lvl_zero, lvl_zero, runOp_zero]
            · obtain ⟨n, rfl⟩ := Int.eq_ofNat_of_zero_le (not_lt.mp hneg)
              by_cases hle : (-m).toNat ≤ n
              · apply step q h
                · intro h'; omega
                · unfold runOp
                  rw [if_neg hm, lower_iter _ _ _ hle, ← hq]
                  rw [show (n : ℤ) - ((-m).toNat : ℕ) = n + m by omega]
              · have hz : q = 0 := by
                  rw [← hq, rangeProd_zero _ _ (by omega) (by omega)]; simp
                apply step q h
                · intro _; rw [hz, mul_zero]
                · rw [hz, mul_zero, lvl_zero]
                  unfold runOp
                  rw [if_neg hm]
                  exact lower_iter_zero n ret _ (by omega)
      · next hm' =>
        have hm0 : m = 0 := by omega
        subst hm0
        obtain ⟨q, hq, h⟩ := Option.bind_eq_some_iff.mp h
        have hq1 : q = 1 := by
          simp [pySqrt] at hq; exact hq.symm
        subst hq1
        apply step 1 h
        · intro h'; rw [hn (by omega), zero_mul]
        · simp [runOp]

theorem foldr_eq_foldl_reverse (l : List ℤ) (φ : ℕ → ℂ) : l.reverse.foldl (fun φ m => runOp m φ) φ = l.foldr runOp φ := by
  rw [List.foldl_reverse]

theorem lvl_one (n : ℕ) : lvl n 1 = Pi.single n (1 : ℂ) := by
  funext k
  simp only [lvl, Complex.ofReal_one, Nat.cast_inj]
  by_cases h : k = n
  · subst h; simp
  · simp [h]

/-- C136.  If `_evaluate_ladder_term` returns a number, this is the matrix element of the product of ladder operators between the Landau level it starts from and the
level that the product leads to; for a negative field that of the product with raising and lowering operators swapped.  For every product and every level. -/
theorem evaluate_ladder_term (w : List Ladder) (n k : ℕ) (B v : ℝ) (h : evaluateLadderTerm (ladderTerm w) n B = some v) :
    (0 ≤ B → (k : ℤ) = n + net w → ladderOp w (Pi.single n 1) k = v) ∧
    (B < 0 → (k : ℤ) = n - net w → ladderOp (w.map Ladder.swap) (Pi.single n 1) k = v) := by
  unfold evaluateLadderTerm at h
  constructor
  · intro hB hk
    rw [if_neg (not_lt.mpr hB)] at h
    have := evalLoop_spec _ _ _ _ (by intro h'; omega) h k (by rw [List.sum_reverse]; exact hk)
    rwa [foldr_eq_foldl_reverse, runs_op, lvl_one] at this
  · intro hB hk
    rw [if_pos hB, ← ladderTerm_swap] at h
    have := evalLoop_spec _ _ _ _ (by intro h'; omega) h k (by
      rw [List.sum_reverse]; have := net_swap w; unfold net at this hk; rw [this]; omega)
    rwa [foldr_eq_foldl_reverse, runs_op, lvl_one] at this

/-- A product of ladder operators leads to one level only. -/
theorem ladder_net (w : List Ladder) (n k : ℕ) (hk : (k : ℤ) ≠ n + net w) : ladderOp w (Pi.single n 1) k = 0 := by
  induction w generalizing k with
  | nil =>
    rw [net_nil, add_zero] at hk
    simp only [ladderOp, List.foldr_nil]
    exact Pi.single_eq_of_ne (by omega) _
  | cons l w ih =>
    rw [net_cons] at hk
    change ladOp l (ladderOp w (Pi.single n 1)) k = 0
    cases l with
    | raise =>
      cases k with
      | zero => rfl
      | succ k => simp only [ladOp, raiseOp]; rw [ih k (by simp only [Ladder.sign] at hk; push_cast at hk; omega), mul_zero]
    | lower =>
      simp only [ladOp, lowerOp]; rw [ih (k + 1) (by simp only [Ladder.sign] at hk; push_cast; omega), mul_zero]

end Kwant.Continuum
