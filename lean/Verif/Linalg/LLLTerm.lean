import Verif.Linalg.LLL
import Mathlib.Analysis.Normed.Module.FiniteDimension
import Mathlib.Data.Set.Finite.Lattice
import Mathlib.Order.WellFoundedSet
import Mathlib.Data.Int.Interval

/-!
C70, termination of `lll`.

The rows below the swapped ones are not size-reduced, so a swap can make the Gram-Schmidt vector longer; but then the next swap happens at the same place
and undoes the damage.  Together with the fact that all vectors stay bounded this gives termination for every `c > 4/3`.
-/

set_option linter.unusedSectionVars false

namespace Kwant.LLL
open Finset

variable {E : Type*} [NormedAddCommGroup E] [InnerProductSpace ℝ E]

local notation "⟪" x ", " y "⟫" => inner ℝ x y

/-- The squared lengths of the Gram-Schmidt vectors. -/
noncomputable def A (s : St E) (k : ℕ) : ℝ := ‖s.star k‖ ^ 2

theorem A_pos {m : ℕ} {s : St E} (h : GSInv m s) {k : ℕ} (hk : k < m) : 0 < A s k := pow_pos (norm_pos_iff.mpr (h.ne k hk)) 2

/-- Size reduction does what it says. -/
theorem llReduce_small {m : ℕ} {s : St E} {i : ℕ} (hi : i < m) (h : GSInv m s) : ∀ j < i, |(llReduce i s).u i j| ≤ 1 / 2 := by
  have key : ∀ n ≤ i, GSInv m (((List.range i).reverse.take n).foldl (redStep i) s) ∧
      ∀ j, i - n ≤ j → j < i → |(((List.range i).reverse.take n).foldl (redStep i) s).u i j| ≤ 1 / 2 := by
    intro n hn
    induction n with
    | zero => exact ⟨by simpa using h, fun j h1 h2 => by omega⟩
    | succ n ih =>
      obtain ⟨h1, h2⟩ := ih (by omega)
      have e : (List.range i).reverse.take (n + 1) = (List.range i).reverse.take n ++ [i - 1 - n] := by
        rw [List.take_succ]
        congr 1
        rw [List.getElem?_reverse (by simpa using hn)]
        simp [List.getElem?_range, show i - 1 - n < i by omega]
      rw [e, List.foldl_append, List.foldl_cons, List.foldl_nil]
      set t := ((List.range i).reverse.take n).foldl (redStep i) s
      refine ⟨gsInv_redStep hi (by omega) h1, fun j hj1 hj2 => ?_⟩
      show |Function.update t.u i _ i j| ≤ 1 / 2
      rw [Function.update_self]
      by_cases ej : j = i - 1 - n
      · rw [ej, h1.diag _ (by omega), mul_one]
        exact npRound_abs _
      · rw [h1.tri (i - 1 - n) (by omega) j (by omega) (by omega), mul_zero, sub_zero]
        exact h2 j (by omega) hj2
  intro j hj
  have := (key i le_rfl).2 j (by omega) hj
  rw [List.take_of_length_le (by simp)] at this
  exact this

/-- The entry next to the diagonal after the reduction. -/
theorem llReduce_last {m : ℕ} {s : St E} {i : ℕ} (hi : i + 1 < m) (h : GSInv m s) :
    (llReduce (i + 1) s).u (i + 1) i = s.u (i + 1) i - npRound (s.u (i + 1) i) := by
  unfold llReduce
  rw [List.range_succ, List.reverse_append, List.reverse_cons, List.reverse_nil, List.nil_append, List.singleton_append, List.foldl_cons]
  have h0 := gsInv_redStep (m := m) hi (Nat.lt_succ_self i) h
  have e0 : (redStep (i + 1) s i).u (i + 1) i = s.u (i + 1) i - npRound (s.u (i + 1) i) := by
    show Function.update s.u (i + 1) _ (i + 1) i = _
    rw [Function.update_self, h.diag i (by omega), mul_one]
  have := foldl_inv (fun t : St E => GSInv m t ∧ t.u (i + 1) i = s.u (i + 1) i - npRound (s.u (i + 1) i)) (redStep (i + 1)) (List.range i).reverse
    (fun t j hj ht => by
      have hji : j < i := by simpa using hj
      refine ⟨gsInv_redStep hi (by omega) ht.1, ?_⟩
      show Function.update t.u (i + 1) _ (i + 1) i = _
      rw [Function.update_self, ht.1.tri j (by omega) i (by omega) hji, mul_zero, sub_zero, ht.2]) _ ⟨h0, e0⟩
  exact this.2

/-- The effect of a swap on the lengths. -/
structure SwapFacts (m i : ℕ) (s t : St E) : Prop where
  gs : GSInv m t
  other : ∀ k, k ≠ i → k ≠ i + 1 → A t k = A s k
  upper : A t i = A s (i + 1) + s.u (i + 1) i ^ 2 * A s i
  prod : A t i * A t (i + 1) = A s i * A s (i + 1)
  small : |t.u (i + 1) i| ≤ 1 / 2
  coef : ∃ q : ℤ, t.u (i + 1) i = s.u (i + 1) i * A s i / A t i - q ∧ (q = 0 ∨ 1 / 2 < |s.u (i + 1) i * A s i / A t i|)
  vecs : ∀ k < m, k ≠ i + 1 → ∃ l < m, t.vecs k = s.vecs l
  last : t.vecs (i + 1) = s.vecs i ∨ ∀ j < i + 1, |t.u (i + 1) j| ≤ 1 / 2

theorem swap_facts {m : ℕ} {s : St E} {i : ℕ} (hi : i + 1 < m) (h : GSInv m s) : SwapFacts m i s (swapStep m i s) := by
  have him : i < m := by omega
  obtain ⟨gr, hk⟩ := gsInv_refresh hi h
  obtain ⟨gt, hk'⟩ := gsInv_swapStep hi h
  obtain ⟨f1, f2, f3⟩ := refresh_fold i (List.range' (i + 2) (m - (i + 2))) (swapSt i s)
  set r := refresh m i (swapSt i s) with hr
  set u0 := s.u (i + 1) i with hu0
  set a := s.star (i + 1) + u0 • s.star i with ha
  set mu := gsCoef (s.vecs i) a with hmu
  have rs : r.star = (swapSt i s).star := f2
  have rv : r.vecs = (swapSt i s).vecs := f1
  have rsi : r.star i = a := by
    rw [rs]
    show Function.update (Function.update s.star i a) (i + 1) _ i = a
    rw [Function.update_of_ne (by omega), Function.update_self]
  have rsi' : r.star (i + 1) = s.star i - mu • a := by
    rw [rs]
    show Function.update (Function.update s.star i a) (i + 1) _ (i + 1) = _
    rw [Function.update_self]
  have ru : r.u (i + 1) i = mu := by
    have := f3 (i + 1)
    rw [if_neg (by rw [List.mem_range'_1]; omega)] at this
    rw [show r.u (i + 1) = (swapSt i s).u (i + 1) from this]
    show Function.update (Function.update s.u i _) (i + 1) _ (i + 1) i = mu
    rw [Function.update_self, Function.update_of_ne (by omega), Function.update_self]
  have oii : ⟪s.star i, s.star (i + 1)⟫ = 0 := h.orth i him (i + 1) hi (by omega)
  have oii' : ⟪s.star (i + 1), s.star i⟫ = 0 := h.orth (i + 1) hi i him (by omega)
  have nA : ‖a‖ ^ 2 = A s (i + 1) + u0 ^ 2 * A s i := by
    rw [← real_inner_self_eq_norm_sq, ha, inner_add_left, inner_add_right, inner_add_right, real_inner_smul_left, real_inner_smul_left, real_inner_smul_right,
      real_inner_smul_right, oii, oii', real_inner_self_eq_norm_sq, real_inner_self_eq_norm_sq]
    unfold A; ring
  have apos : 0 < ‖a‖ ^ 2 := by rw [← rsi]; exact pow_pos (norm_pos_iff.mpr (gr.ne i him)) 2
  have ob : ⟪a, s.star i - mu • a⟫ = 0 := by rw [← rsi', ← rsi]; exact gr.orth i him (i + 1) hi (by omega)
  have ob' : ⟪s.star i - mu • a, a⟫ = 0 := by rw [real_inner_comm]; exact ob
  have ia : ⟪a, s.star i⟫ = u0 * A s i := by
    rw [ha, inner_add_left, real_inner_smul_left, oii', real_inner_self_eq_norm_sq, zero_add]; rfl
  have muA : mu * ‖a‖ ^ 2 = u0 * A s i := by
    rw [inner_sub_right, real_inner_smul_right, real_inner_self_eq_norm_sq, ia] at ob
    linarith
  have mueq : mu = u0 * A s i / ‖a‖ ^ 2 := by rw [eq_div_iff apos.ne']; exact muA
  have nB : ‖s.star i - mu • a‖ ^ 2 = A s i - mu ^ 2 * ‖a‖ ^ 2 := by
    have e : s.star i = mu • a + (s.star i - mu • a) := by abel
    have e2 : A s i = mu ^ 2 * ‖a‖ ^ 2 + ‖s.star i - mu • a‖ ^ 2 := by
      unfold A
      conv_lhs => rw [e]
      rw [← real_inner_self_eq_norm_sq, inner_add_left, inner_add_right, inner_add_right, real_inner_smul_left, real_inner_smul_left, real_inner_smul_right,
        real_inner_smul_right, ob, ob', real_inner_self_eq_norm_sq, real_inner_self_eq_norm_sq]
      ring
    linarith
  have hp : ‖a‖ ^ 2 * ‖s.star i - mu • a‖ ^ 2 = A s i * A s (i + 1) := by
    rw [nB]
    have : ‖a‖ ^ 2 * (A s i - mu ^ 2 * ‖a‖ ^ 2) = A s i * ‖a‖ ^ 2 - (mu * ‖a‖ ^ 2) ^ 2 := by ring
    rw [this, muA, nA]; ring
  have rvk : ∀ k < m, ∃ l < m, r.vecs k = s.vecs l := fun k hkm => by
    rw [rv]
    refine ⟨Equiv.swap i (i + 1) k, ?_, rfl⟩
    rw [Equiv.swap_apply_def]; split
    · omega
    · split <;> omega
  have rvi : r.vecs (i + 1) = s.vecs i := by rw [rv]; show s.vecs (Equiv.swap i (i + 1) (i + 1)) = _; rw [Equiv.swap_apply_right]
  have ts : (swapStep m i s).star = r.star := by
    unfold swapStep maybeReduce
    split
    · exact (llReduce_frame _ (i + 1)).1
    · rfl
  have Ai : A (swapStep m i s) i = ‖a‖ ^ 2 := by unfold A; rw [ts, rsi]
  have Aj : A (swapStep m i s) (i + 1) = ‖s.star i - mu • a‖ ^ 2 := by unfold A; rw [ts, rsi']
  have cases : ((swapStep m i s).u (i + 1) i = mu ∧ |mu| ≤ 1 / 2 ∧ (swapStep m i s).vecs = r.vecs) ∨
      (1 / 2 < |mu| ∧ (swapStep m i s).u (i + 1) i = mu - npRound mu ∧ (∀ j < i + 1, |(swapStep m i s).u (i + 1) j| ≤ 1 / 2) ∧
        ∀ k, k ≠ i + 1 → (swapStep m i s).vecs k = r.vecs k) := by
    unfold swapStep maybeReduce
    rw [← hr, ru]
    by_cases hc : 1 / 2 < |mu|
    · rw [if_pos hc]
      right
      refine ⟨hc, ?_, llReduce_small hi gr, (llReduce_frame r (i + 1)).2.1⟩
      rw [llReduce_last hi gr, ru]
    · rw [if_neg hc]
      exact Or.inl ⟨ru, le_of_not_gt hc, rfl⟩
  refine ⟨gt, fun k h1 h2 => by unfold A; rw [hk' k h1 h2], by rw [Ai, nA], by rw [Ai, Aj, hp], ?_, ?_, ?_, ?_⟩
  · rcases cases with ⟨h1, h2, -⟩ | ⟨-, h2, h3, -⟩
    · rw [h1]; exact h2
    · exact h3 i (Nat.lt_succ_self i)
  · rw [Ai, ← mueq]
    rcases cases with ⟨h1, h2, -⟩ | ⟨h1, h2, h3, -⟩
    · exact ⟨0, by rw [h1]; simp, Or.inl rfl⟩
    · exact ⟨npRound mu, h2, Or.inr h1⟩
  · intro k hkm hki
    rcases cases with ⟨-, -, h3⟩ | ⟨-, -, -, h3⟩
    · rw [h3]; exact rvk k hkm
    · rw [h3 k hki]; exact rvk k hkm
  · rcases cases with ⟨-, -, h3⟩ | ⟨-, -, h3, -⟩
    · left; rw [h3, rvi]
    · exact Or.inr h3

/-- Pythagoras. -/
theorem norm_vecs {m : ℕ} {s : St E} (h : GSInv m s) {k : ℕ} (hk : k < m) : ‖s.vecs k‖ ^ 2 = ∑ j ∈ range m, s.u k j ^ 2 * A s j := by
  rw [← real_inner_self_eq_norm_sq]
  conv_lhs => rw [h.exp k hk]
  rw [sum_inner]
  refine Finset.sum_congr rfl fun j hj => ?_
  rw [inner_sum, Finset.sum_eq_single j]
  · rw [real_inner_smul_left, real_inner_smul_right, real_inner_self_eq_norm_sq]; unfold A; ring
  · intro l hl hlj
    rw [real_inner_smul_left, real_inner_smul_right, h.orth j (Finset.mem_range.mp hj) l (Finset.mem_range.mp hl) (Ne.symm hlj), mul_zero, mul_zero]
  · intro hx; exact absurd hj hx

/-- The potential of Lenstra, Lenstra and Lovász. -/
noncomputable def Phi (m : ℕ) (s : St E) : ℝ := ∏ j ∈ range m, A s j ^ (m - j)

theorem Phi_pos {m : ℕ} {s : St E} (h : GSInv m s) : 0 < Phi m s :=
  Finset.prod_pos fun j hj => pow_pos (A_pos h (Finset.mem_range.mp hj)) _

theorem prod_two {m i : ℕ} (hi : i + 1 < m) (f : ℕ → ℝ) :
    ∏ j ∈ range m, f j = f i * f (i + 1) * ∏ j ∈ (range m).filter (fun j => j ≠ i ∧ j ≠ i + 1), f j := by
  have h1 : range m = insert i (insert (i + 1) ((range m).filter (fun j => j ≠ i ∧ j ≠ i + 1))) := by
    ext j
    simp only [Finset.mem_range, Finset.mem_insert, Finset.mem_filter]
    omega
  conv_lhs => rw [h1]
  rw [Finset.prod_insert (by simp), Finset.prod_insert (by simp), mul_assoc]

theorem Phi_swap {m i : ℕ} (hi : i + 1 < m) {s t : St E} (h : SwapFacts m i s t) : Phi m t * A s i = Phi m s * A t i := by
  unfold Phi
  rw [prod_two hi, prod_two hi]
  have e : ∏ j ∈ (range m).filter (fun j => j ≠ i ∧ j ≠ i + 1), A t j ^ (m - j) = ∏ j ∈ (range m).filter (fun j => j ≠ i ∧ j ≠ i + 1), A s j ^ (m - j) := by
    refine Finset.prod_congr rfl fun j hj => ?_
    simp only [Finset.mem_filter] at hj
    rw [h.other j hj.2.1 hj.2.2]
  rw [e]
  obtain ⟨n, hn⟩ : ∃ n, m = i + 1 + n := ⟨m - (i + 1), by omega⟩
  have e1 : m - i = n + 1 := by omega
  have e2 : m - (i + 1) = n := by omega
  rw [e1, e2]
  have e3 : A t i ^ (n + 1) * A t (i + 1) ^ n = A t i * (A t i * A t (i + 1)) ^ n := by rw [mul_pow]; ring
  have e4 : A s i ^ (n + 1) * A s (i + 1) ^ n = A s i * (A s i * A s (i + 1)) ^ n := by rw [mul_pow]; ring
  rw [e3, e4, h.prod]
  ring

/-- The loop ends. -/
def Ends (m : ℕ) (c : ℝ) (p : ℕ × St E) : Prop := ∃ fuel s, mainLoop m c fuel p = some s

theorem ends_step {m : ℕ} {c : ℝ} {p : ℕ × St E} (hp : p.1 + 1 < m) (h : Ends m c (mainStep m c p)) : Ends m c p := by
  obtain ⟨fuel, s, hs⟩ := h
  refine ⟨fuel + 1, s, ?_⟩
  unfold mainLoop
  rw [if_pos hp]
  exact hs

theorem ends_exit {m : ℕ} {c : ℝ} {p : ℕ × St E} (hp : ¬ p.1 + 1 < m) : Ends m c p := by
  refine ⟨1, p.2, ?_⟩
  unfold mainLoop
  rw [if_neg hp]

theorem ends_lovasz {m : ℕ} {c : ℝ} {i : ℕ} {s : St E} (hi : i + 1 < m) (hl : lovasz c i s) (h : Ends m c (i + 1, s)) : Ends m c (i, s) := by
  refine ends_step hi ?_
  unfold mainStep
  rw [if_pos hl]
  exact h

theorem ends_swap {m : ℕ} {c : ℝ} {i : ℕ} {s : St E} (hi : i + 1 < m) (hl : ¬ lovasz c i s) (h : Ends m c (i - 1, swapStep m i s)) : Ends m c (i, s) := by
  refine ends_step hi ?_
  unfold mainStep
  rw [if_neg hl]
  exact h

/-- Back to the same index. -/
theorem ends_back {m : ℕ} {c : ℝ} {i : ℕ} {s : St E} (hi : i + 1 < m) (hl : 0 < i → lovasz c (i - 1) s) (h : Ends m c (i, s)) : Ends m c (i - 1, s) := by
  by_cases h0 : i = 0
  · subst h0; exact h
  · refine ends_lovasz (by omega) (hl (by omega)) ?_
    rw [show i - 1 + 1 = i by omega]
    exact h

/-- All lengths are bounded. -/
structure Good {m : ℕ} (basis : Fin m → E) (c M W : ℝ) (p : ℕ × St E) : Prop where
  inv : LoopInv basis c p
  star : ∀ k < m, A p.2 k ≤ M
  vec : ∀ k < m, ‖p.2.vecs k‖ ^ 2 ≤ W

theorem loopInv_swap {m : ℕ} {basis : Fin m → E} {c : ℝ} {i : ℕ} {s : St E} (hi : i + 1 < m) (hl : ¬ lovasz c i s) (h : LoopInv basis c (i, s)) :
    LoopInv basis c (i - 1, swapStep m i s) := by
  have := loopInv_step (p := (i, s)) hi h
  unfold mainStep at this
  rw [if_neg hl] at this
  exact this

theorem loopInv_back {m : ℕ} {basis : Fin m → E} {c : ℝ} {i : ℕ} {s : St E} (hl : 0 < i → lovasz c (i - 1) s) (h : LoopInv basis c (i - 1, s)) :
    LoopInv basis c (i, s) := by
  refine ⟨h.uni, h.gs, fun k hk hkm => ?_⟩
  have hk' : k < i := hk
  by_cases e : k = i - 1
  · rw [e]; exact hl (by omega)
  · exact h.red k (show k < i - 1 by omega) hkm

/-- A vector that has just been reduced is short. -/
theorem row_bound {m i : ℕ} (hi : i + 1 < m) {M : ℝ} (hM : 0 ≤ M) {t : St E} (h : GSInv m t) (hu : ∀ j < i + 1, |t.u (i + 1) j| ≤ 1 / 2)
    (ho : ∀ k < m, k ≠ i → k ≠ i + 1 → A t k ≤ M) (h2 : t.u (i + 1) i ^ 2 * A t i + A t (i + 1) ≤ 2 * M) : ‖t.vecs (i + 1)‖ ^ 2 ≤ (m + 2) * M := by
  rw [norm_vecs h hi, sum_two hi, h.diag (i + 1) hi]
  have hs : ∑ j ∈ (range m).filter (fun j => j ≠ i ∧ j ≠ i + 1), t.u (i + 1) j ^ 2 * A t j ≤ ∑ j ∈ range m, M := by
    refine le_trans (Finset.sum_le_sum (g := fun _ => M) fun j hj => ?_) (Finset.sum_le_sum_of_subset_of_nonneg (Finset.filter_subset _ _) fun _ _ _ => hM)
    simp only [Finset.mem_filter, Finset.mem_range] at hj
    have hA := ho j hj.1 hj.2.1 hj.2.2
    have hA0 := (A_pos h hj.1).le
    by_cases hji : j < i + 1
    · have := hu j hji
      have hsq : t.u (i + 1) j ^ 2 ≤ 1 := by rw [← sq_abs]; nlinarith [abs_nonneg (t.u (i + 1) j)]
      nlinarith
    · rw [h.tri (i + 1) hi j hj.1 (by omega)]
      nlinarith
  rw [Finset.sum_const, Finset.card_range, nsmul_eq_mul] at hs
  nlinarith

theorem reduced_le {m i : ℕ} {s t : St E} (hi : i + 1 < m) (hs : GSInv m s) (h : SwapFacts m i s t) :
    ∃ q : ℤ, A t (i + 1) + t.u (i + 1) i ^ 2 * A t i = A s i * (1 - q * s.u (i + 1) i) ^ 2 + q ^ 2 * A s (i + 1) ∧
      (q ≠ 0 → A t (i + 1) + t.u (i + 1) i ^ 2 * A t i < A s i) := by
  obtain ⟨q, hq, hq2⟩ := h.coef
  have ha := A_pos hs (show i < m by omega)
  have ht := A_pos h.gs (show i < m by omega)
  have e1 : s.u (i + 1) i * A s i / A t i * A t i = s.u (i + 1) i * A s i := div_mul_cancel₀ _ ht.ne'
  set mu := s.u (i + 1) i * A s i / A t i
  have hB : A t (i + 1) = A s i - mu ^ 2 * A t i := by
    have e2 : A t i * A t (i + 1) = A t i * (A s i - mu ^ 2 * A t i) := by
      have : A t i * (A s i - mu ^ 2 * A t i) = A s i * A t i - (mu * A t i) ^ 2 := by ring
      rw [this, e1, h.prod]
      conv_rhs => rw [h.upper]
      ring
    exact mul_left_cancel₀ ht.ne' e2
  refine ⟨q, ?_, fun hq0 => ?_⟩
  · rw [hB, hq]
    have hu := h.upper
    have : A s i - mu ^ 2 * A t i + (mu - q) ^ 2 * A t i = A s i - 2 * q * (mu * A t i) + q ^ 2 * A t i := by ring
    rw [this, e1]
    conv_lhs => rw [hu]
    ring
  · have hm : 1 / 2 < |mu| := by rcases hq2 with h0 | h0; exact absurd h0 hq0; exact h0
    have hsm := h.small
    have : t.u (i + 1) i ^ 2 < mu ^ 2 := by rw [← sq_abs, ← sq_abs mu]; nlinarith [abs_nonneg (t.u (i + 1) i)]
    rw [hB]; nlinarith

theorem reduced_le' {m i : ℕ} {s t : St E} (hi : i + 1 < m) (hs : GSInv m s) (h : SwapFacts m i s t) :
    A t (i + 1) + t.u (i + 1) i ^ 2 * A t i ≤ A s i := by
  obtain ⟨q, h1, h2⟩ := reduced_le hi hs h
  by_cases hq : q = 0
  · rw [h1, hq]; simp
  · exact (h2 hq).le

/-- The vectors stay bounded. -/
theorem vec_bound {m i : ℕ} (hi : i + 1 < m) {M W : ℝ} (hM : 0 ≤ M) (hW : (m + 2) * M ≤ W) {s t : St E} (h : SwapFacts m i s t)
    (ho : ∀ k < m, k ≠ i → k ≠ i + 1 → A t k ≤ M) (h2 : t.u (i + 1) i ^ 2 * A t i + A t (i + 1) ≤ 2 * M) (hv : ∀ k < m, ‖s.vecs k‖ ^ 2 ≤ W) :
    ∀ k < m, ‖t.vecs k‖ ^ 2 ≤ W := by
  intro k hk
  by_cases e : k = i + 1
  · subst e
    rcases h.last with hl | hl
    · rw [hl]; exact hv i (by omega)
    · exact (row_bound hi hM h.gs hl ho h2).trans hW
  · obtain ⟨l, hl, hl2⟩ := h.vecs k hk e
    rw [hl2]; exact hv l hl

set_option maxHeartbeats 2000000 in
/-- One round: from a good state the loop ends if it ends from all good states with smaller potential, or with the same potential and the next index. -/
theorem round {m : ℕ} {basis : Fin m → E} {c M W : ℝ} (hc : 4 / 3 < c) (hM : 0 ≤ M) (hW : (m + 2) * M ≤ W) {i : ℕ} {s : St E}
    (hi : i + 1 < m) (hG : Good basis c M W (i, s))
    (H : ∀ j t, Good basis c M W (j, t) → ((Phi m t = Phi m s ∧ j = i + 1) ∨ Phi m t < Phi m s) → Ends m c (j, t)) : Ends m c (i, s) := by
  have him : i < m := by omega
  have hc0 : 0 < c := by linarith
  by_cases hl : lovasz c i s
  · refine ends_lovasz hi hl (H _ _ ⟨?_, hG.star, hG.vec⟩ (Or.inl ⟨rfl, rfl⟩))
    have := loopInv_step (p := (i, s)) hi hG.inv
    unfold mainStep at this
    rw [if_pos hl] at this
    exact this
  · have gs0 : GSInv m s := hG.inv.gs
    have F1 := swap_facts hi gs0
    have L1 := loopInv_swap hi hl hG.inv
    refine ends_swap hi hl ?_
    set s1 := swapStep m i s with hs1
    have a0 := A_pos gs0 him
    have b0 := A_pos gs0 hi
    have a1 := A_pos F1.gs him
    have b1 := A_pos F1.gs hi
    have ha : A s i ≤ M := hG.star i him
    have hb : A s (i + 1) ≤ M := hG.star (i + 1) hi
    have hnl : c * A s (i + 1) ≤ A s i := le_of_not_gt hl
    have hba : A s (i + 1) < A s i := by nlinarith
    have P1 := Phi_swap hi F1
    have pos0 := Phi_pos gs0
    have o1 : ∀ k < m, k ≠ i → k ≠ i + 1 → A s1 k ≤ M := fun k hk h1 h2 => by rw [F1.other k h1 h2]; exact hG.star k hk
    have R1 := reduced_le' hi gs0 F1
    have V1 := vec_bound hi hM hW F1 o1 (by linarith) hG.vec
    have low : 0 < i → A s (i - 1) < c * A s i := fun h0 => by
      have := hG.inv.red (i - 1) (show i - 1 < i by omega) (by omega)
      unfold lovasz at this
      rw [show i - 1 + 1 = i by omega] at this
      exact this
    have u1 := F1.upper
    have ub : A s (i + 1) ≤ A s1 i := by rw [u1]; nlinarith [sq_nonneg (s.u (i + 1) i)]
    by_cases hdec : A s1 i < A s i
    · refine H _ _ ⟨L1, fun k hk => ?_, V1⟩ (Or.inr ?_)
      · by_cases k1 : k = i
        · rw [k1]; exact hdec.le.trans ha
        · by_cases k2 : k = i + 1
          · rw [k2]
            show A s1 (i + 1) ≤ M
            have := F1.prod
            have : A s1 (i + 1) ≤ A s i := by nlinarith
            exact this.trans ha
          · exact o1 k hk k1 k2
      · have : Phi m s1 * A s i < Phi m s * A s i := by rw [P1]; exact mul_lt_mul_of_pos_left hdec pos0
        exact lt_of_mul_lt_mul_right this a0.le
    · -- the swap made the vector longer
      have hinc : A s i ≤ A s1 i := le_of_not_gt hdec
      have low1 : 0 < i → lovasz c (i - 1) s1 := fun h0 => by
        unfold lovasz
        rw [show i - 1 + 1 = i by omega]
        show A s1 (i - 1) < c * A s1 i
        rw [F1.other (i - 1) (by omega) (by omega)]
        exact (low h0).trans_le (mul_le_mul_of_nonneg_left hinc hc0.le)
      refine ends_back hi low1 ?_
      have L1' := loopInv_back low1 L1
      have hb1 : A s1 (i + 1) ≤ A s (i + 1) := by
        have := F1.prod
        nlinarith
      have hl1 : ¬ lovasz c i s1 := by
        unfold lovasz
        show ¬ A s1 i < c * A s1 (i + 1)
        have : c * A s1 (i + 1) ≤ c * A s (i + 1) := mul_le_mul_of_nonneg_left hb1 hc0.le
        linarith
      have F2 := swap_facts hi F1.gs
      have L2 := loopInv_swap hi hl1 L1'
      refine ends_swap hi hl1 ?_
      set s2 := swapStep m i s1 with hs2
      have a2 := A_pos F2.gs him
      have b2 := A_pos F2.gs hi
      have P2 := Phi_swap hi F2
      have pos1 := Phi_pos F1.gs
      have P20 : Phi m s2 * A s i = Phi m s * A s2 i := by
        have : Phi m s2 * A s i * A s1 i = Phi m s * A s2 i * A s1 i := by
          calc Phi m s2 * A s i * A s1 i = (Phi m s2 * A s1 i) * A s i := by ring
            _ = Phi m s1 * A s i * A s2 i := by rw [P2]; ring
            _ = _ := by rw [P1]; ring
        exact mul_right_cancel₀ a1.ne' this
      have prod2 : A s2 i * A s2 (i + 1) = A s i * A s (i + 1) := by rw [F2.prod, F1.prod]
      obtain ⟨q, hq1, hq2⟩ := reduced_le hi gs0 F1
      have ua : A s2 i = A s1 (i + 1) + s1.u (i + 1) i ^ 2 * A s1 i := F2.upper
      have ha2 : A s2 i ≤ A s i := by rw [ua]; exact R1
      have hb2' : A s (i + 1) ≤ A s2 i := by
        by_cases hq : q = 0
        · rw [ua, hq1, hq]; simp; exact hba.le
        · have q1 : (1 : ℝ) ≤ (q : ℝ) ^ 2 := by
            have : (1 : ℤ) ≤ q ^ 2 := by have := sq_nonneg q; have h2 : q ^ 2 ≠ 0 := pow_ne_zero 2 hq; omega
            exact_mod_cast this
          rw [ua, hq1]
          nlinarith [mul_nonneg a0.le (sq_nonneg (1 - (q : ℝ) * s.u (i + 1) i))]
      have hb2 : A s2 (i + 1) ≤ A s i := by nlinarith
      have o2 : ∀ k < m, k ≠ i → k ≠ i + 1 → A s2 k ≤ M := fun k hk h1 h2 => by rw [F2.other k h1 h2]; exact o1 k hk h1 h2
      have st2 : ∀ k < m, A s2 k ≤ M := fun k hk => by
        by_cases k1 : k = i
        · rw [k1]; exact ha2.trans ha
        · by_cases k2 : k = i + 1
          · rw [k2]; exact hb2.trans ha
          · exact o2 k hk k1 k2
      have V2 := vec_bound hi hM hW F2 o2 (by
        have hsm := F2.small
        have hsq : s2.u (i + 1) i ^ 2 ≤ 1 := by rw [← sq_abs]; nlinarith [abs_nonneg (s2.u (i + 1) i)]
        have h1 := st2 i him
        have h2 := st2 (i + 1) hi
        nlinarith) V1
      by_cases hq : q = 0
      · have e2 : A s2 i = A s i := by rw [ua, hq1, hq]; simp
        have e2' : A s2 (i + 1) = A s (i + 1) := by rw [e2] at prod2; exact mul_left_cancel₀ a0.ne' prod2
        have low2 : 0 < i → lovasz c (i - 1) s2 := fun h0 => by
          unfold lovasz
          rw [show i - 1 + 1 = i by omega]
          show A s2 (i - 1) < c * A s2 i
          rw [F2.other (i - 1) (by omega) (by omega), F1.other (i - 1) (by omega) (by omega), e2]
          exact low h0
        refine ends_back hi low2 ?_
        have L2' := loopInv_back low2 L2
        have hl2 : ¬ lovasz c i s2 := by
          unfold lovasz
          show ¬ A s2 i < c * A s2 (i + 1)
          rw [e2, e2']; linarith
        have F3 := swap_facts hi F2.gs
        have L3 := loopInv_swap hi hl2 L2'
        refine ends_swap hi hl2 ?_
        set s3 := swapStep m i s2 with hs3
        have P3 := Phi_swap hi F3
        have a3 := A_pos F3.gs him
        have b3 := A_pos F3.gs hi
        have hdec3 : A s3 i < A s i := by
          rw [F3.upper, e2, e2']
          have hsm := F2.small
          have hsq : s2.u (i + 1) i ^ 2 ≤ 1 / 4 := by rw [← sq_abs]; nlinarith [abs_nonneg (s2.u (i + 1) i)]
          have : s2.u (i + 1) i ^ 2 * A s i ≤ 1 / 4 * A s i := mul_le_mul_of_nonneg_right hsq a0.le
          nlinarith
        have ub3 : A s (i + 1) ≤ A s3 i := by rw [F3.upper, e2']; nlinarith [sq_nonneg (s2.u (i + 1) i)]
        have prod3 : A s3 i * A s3 (i + 1) = A s i * A s (i + 1) := by rw [F3.prod, prod2]
        have o3 : ∀ k < m, k ≠ i → k ≠ i + 1 → A s3 k ≤ M := fun k hk h1 h2 => by rw [F3.other k h1 h2]; exact o2 k hk h1 h2
        have R3 := reduced_le' hi F2.gs F3
        have V3 := vec_bound hi hM hW F3 o3 (by linarith) V2
        refine H _ _ ⟨L3, fun k hk => ?_, V3⟩ (Or.inr ?_)
        · by_cases k1 : k = i
          · rw [k1]; exact hdec3.le.trans ha
          · by_cases k2 : k = i + 1
            · rw [k2]
              show A s3 (i + 1) ≤ M
              have : A s3 (i + 1) ≤ A s i := by nlinarith
              exact this.trans ha
            · exact o3 k hk k1 k2
        · have e : Phi m s2 = Phi m s := by rw [e2] at P20; exact mul_right_cancel₀ a0.ne' P20
          rw [e2, e] at P3
          have : Phi m s3 * A s i < Phi m s * A s i := by rw [P3]; exact mul_lt_mul_of_pos_left hdec3 pos0
          exact lt_of_mul_lt_mul_right this a0.le
      · have hdec2 : A s2 i < A s i := by rw [ua]; exact hq2 hq
        refine H _ _ ⟨L2, st2, V2⟩ (Or.inr ?_)
        have : Phi m s2 * A s i < Phi m s * A s i := by rw [P20]; exact mul_lt_mul_of_pos_left hdec2 pos0
        exact lt_of_mul_lt_mul_right this a0.le

/-- Only finitely many lattice vectors are short. -/
theorem finite_short {m : ℕ} {basis : Fin m → E} (hb : LinearIndependent ℝ basis) (W : ℝ) :
    {w : E | (∃ z : Fin m → ℤ, w = ∑ j, z j • basis j) ∧ ‖w‖ ^ 2 ≤ W}.Finite := by
  let f : (Fin m → ℝ) →ₗ[ℝ] E := Fintype.linearCombination ℝ basis
  have hf : LinearMap.ker f = ⊥ := by
    rw [LinearMap.ker_eq_bot']
    intro g hg
    funext i
    exact Fintype.linearIndependent_iff.mp hb g hg i
  obtain ⟨K, hK, hlip⟩ := f.exists_antilipschitzWith hf
  set B : ℤ := ⌈(K : ℝ) * (W + 1)⌉
  have hfin : (Set.univ.pi fun _ : Fin m => (Set.Icc (-B) B : Set ℤ)).Finite := Set.Finite.pi fun _ => Set.finite_Icc _ _
  refine (hfin.image fun z => ∑ j, z j • basis j).subset ?_
  rintro w ⟨⟨z, rfl⟩, hw⟩
  refine ⟨z, fun i _ => ?_, rfl⟩
  set w := ∑ j, z j • basis j with hwdef
  have hfz : f (fun j => (z j : ℝ)) = w := by
    show Fintype.linearCombination ℝ basis (fun j => (z j : ℝ)) = w
    rw [Fintype.linearCombination_apply, hwdef]
    exact Finset.sum_congr rfl fun j _ => by rw [Int.cast_smul_eq_zsmul]
  have h1 := hlip.le_mul_dist (fun j => (z j : ℝ)) 0
  rw [map_zero, hfz, dist_zero_right, dist_zero_right] at h1
  have h2 : ‖(z i : ℝ)‖ ≤ ‖(fun j => (z j : ℝ))‖ := norm_le_pi_norm (fun j => (z j : ℝ)) i
  have h3 : ‖w‖ ≤ W + 1 := by nlinarith [norm_nonneg w]
  have h4 : |(z i : ℝ)| ≤ K * (W + 1) := by
    rw [← Real.norm_eq_abs]
    exact h2.trans (h1.trans (mul_le_mul_of_nonneg_left h3 K.2))
  have h5 : |(z i : ℝ)| ≤ B := h4.trans (Int.le_ceil _)
  rw [abs_le] at h5
  refine ⟨?_, ?_⟩
  · exact_mod_cast h5.1
  · exact_mod_cast h5.2

/-- The potential takes finitely many values on good states. -/
theorem finite_Phi {m : ℕ} {basis : Fin m → E} (hb : LinearIndependent ℝ basis) (c M W : ℝ) :
    {x : ℝ | ∃ p, Good basis c M W p ∧ Phi m p.2 = x}.Finite := by
  have hfin : (Set.univ.pi fun _ : Fin m => {w : E | (∃ z : Fin m → ℤ, w = ∑ j, z j • basis j) ∧ ‖w‖ ^ 2 ≤ W}).Finite :=
    Set.Finite.pi fun _ => finite_short hb W
  refine (hfin.image fun v => ∏ j : Fin m, (‖InnerProductSpace.gramSchmidt ℝ v j‖ ^ 2) ^ (m - j.val)).subset ?_
  rintro x ⟨p, hp, rfl⟩
  refine ⟨fun k => p.2.vecs k, fun k _ => ⟨?_, hp.vec k k.isLt⟩, ?_⟩
  · obtain ⟨N, -, h2⟩ := hp.inv.uni
    exact ⟨N k, h2 k⟩
  · show ∏ j : Fin m, _ = Phi m p.2
    unfold Phi
    rw [← Fin.prod_univ_eq_prod_range (fun j => A p.2 j ^ (m - j)) m]
    refine Finset.prod_congr rfl fun j _ => ?_
    rw [gramSchmidt_eq hp.inv.gs j]
    rfl

/-- **C70**, termination: for every basis and every `c > 4/3` the loop of `lll` ends. -/
theorem C70_terminates {m : ℕ} (lstsq : (Fin m → E) → (Fin m → E) → Matrix (Fin m) (Fin m) ℝ) {basis : Fin m → E} (hb : LinearIndependent ℝ basis)
    {c : ℝ} (hc : 4 / 3 < c) : ∃ fuel r, lll lstsq basis c fuel = some r := by
  set s0 := initSt m (rows basis) with hs0
  set M : ℝ := ∑ k ∈ range m, A s0 k with hM
  set W : ℝ := (m + 2) * M + ∑ k ∈ range m, ‖s0.vecs k‖ ^ 2 with hW
  have hA : ∀ k, 0 ≤ A s0 k := fun k => sq_nonneg _
  have hM0 : 0 ≤ M := Finset.sum_nonneg fun k _ => hA k
  have hWM : (m + 2) * M ≤ W := by
    rw [hW]; linarith [Finset.sum_nonneg fun k (_ : k ∈ range m) => sq_nonneg ‖s0.vecs k‖]
  have G0 : Good basis c M W (0, s0) := by
    refine ⟨⟨unimod_init basis, init_gs hb, fun k hk => absurd hk (Nat.not_lt_zero k)⟩, fun k hk => ?_, fun k hk => ?_⟩
    · exact Finset.single_le_sum (fun k _ => hA k) (Finset.mem_range.mpr hk)
    · have h1 := Finset.single_le_sum (f := fun k => ‖s0.vecs k‖ ^ 2) (fun k _ => sq_nonneg _) (Finset.mem_range.mpr hk)
      have h2 : (0 : ℝ) ≤ (m + 2) * M := by positivity
      show ‖s0.vecs k‖ ^ 2 ≤ W
      rw [hW]; linarith
  set F := (finite_Phi hb c M W).toFinset with hF
  have key : ∀ n : ℕ, ∀ i (s : St E), Good basis c M W (i, s) → (F.filter (· < Phi m s)).card * (m + 1) + (m - i) ≤ n → Ends m c (i, s) := by
    intro n
    induction n with
    | zero =>
      intro i s _ hn
      exact ends_exit (show ¬ i + 1 < m by omega)
    | succ n ih =>
      intro i s hG hn
      by_cases hi : i + 1 < m
      · refine round hc hM0 hWM hi hG fun j t hG' hlt => ih j t hG' ?_
        rcases hlt with ⟨h1, h2⟩ | h1
        · rw [h1, h2]; omega
        · have hcard : (F.filter (· < Phi m t)).card < (F.filter (· < Phi m s)).card := by
            apply Finset.card_lt_card
            rw [Finset.ssubset_iff_of_subset]
            · refine ⟨Phi m t, ?_, ?_⟩
              · rw [Finset.mem_filter]
                exact ⟨(finite_Phi hb c M W).mem_toFinset.mpr ⟨(j, t), hG', rfl⟩, h1⟩
              · rw [Finset.mem_filter]; exact fun hx => lt_irrefl _ hx.2
            · intro x hx
              rw [Finset.mem_filter] at hx ⊢
              exact ⟨hx.1, hx.2.trans h1⟩
          have : ((F.filter (· < Phi m t)).card + 1) * (m + 1) ≤ (F.filter (· < Phi m s)).card * (m + 1) := Nat.mul_le_mul_right _ hcard
          have e : ((F.filter (· < Phi m t)).card + 1) * (m + 1) = (F.filter (· < Phi m t)).card * (m + 1) + (m + 1) := by ring
          omega
      · exact ends_exit hi
  obtain ⟨fuel, s, hs⟩ := key _ 0 s0 G0 le_rfl
  refine ⟨fuel, finish lstsq basis c s, ?_⟩
  unfold lll
  rw [← hs0, hs]
  rfl

end Kwant.LLL
