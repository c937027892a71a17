import Verif.Oper.Blocks
import Mathlib.Algebra.BigOperators.Group.Finset.Basic
import Mathlib.Algebra.BigOperators.Ring.Finset
import Mathlib.Algebra.BigOperators.Group.Finset.Piecewise
import Mathlib.Algebra.BigOperators.Intervals
import Mathlib.Algebra.Star.BigOperators

/-!
Specification of the operators: the tensors `Q` of the documentation (operator.pyx l.756-762, l.908-919, l.1036-1043), and
the sums computed by the loops.
-/

set_option linter.unusedSectionVars false

namespace Kwant.Oper
open Kwant Kwant.System Finset

section
variable {R P E : Type} [CommRing R] [StarRing R] [DecidableEq R] [CLike R]

/-! ### Specification -/

/-- First orbital of site `a`, given the numbers of orbitals of the sites. -/
def firstOrb (norb : ℕ → ℕ) (a : ℕ) : ℕ := ∑ k ∈ range a, norb k

/-- Orbital `α` belongs to site `a`. -/
abbrev OnSite (norb : ℕ → ℕ) (a α : ℕ) : Prop := firstOrb norb a ≤ α ∧ α < firstOrb norb a + norb a

/-- The matrix over all orbitals that is `X` between the orbitals of site `a` and those of site `b`, and zero elsewhere. -/
def embed (norb : ℕ → ℕ) (a b : ℕ) (X : ℕ → ℕ → R) (α β : ℕ) : R :=
  if OnSite norb a α ∧ OnSite norb b β then X (α - firstOrb norb a) (β - firstOrb norb b) else 0

/-- `Q` of a density: `M` on site `a`. -/
def densityQ (norb : ℕ → ℕ) (a : ℕ) (M : ℕ → ℕ → R) : ℕ → ℕ → R := embed norb a a M

/-- `H† M` (columns of `H` times columns of `M`), sites with `n` orbitals. -/
def daggerMul (n : ℕ) (H M : ℕ → ℕ → R) (i k : ℕ) : R := ∑ j ∈ range n, star (H j i) * M j k

/-- `M H` -/
def matMul (n : ℕ) (M H : ℕ → ℕ → R) (j i : ℕ) : R := ∑ k ∈ range n, M j k * H k i

/-- `Q` of a current on the hopping `(a, b)`: `i (H_ab)† M_a` between `b` and `a`, `-i M_a H_ab` between `a` and `b`. -/
def currentQ (norb : ℕ → ℕ) (a b : ℕ) (M H : ℕ → ℕ → R) (α β : ℕ) : R :=
  CLike.I * embed norb b a (daggerMul (norb a) H M) α β - CLike.I * embed norb a b (matMul (norb a) M H) α β

/-- `Q` of a source: `i [(H_a)† M_a - M_a H_a]` on site `a`. -/
def sourceQ (norb : ℕ → ℕ) (a : ℕ) (M H : ℕ → ℕ → R) (α β : ℕ) : R :=
  embed norb a a (fun i j => CLike.I * (daggerMul (norb a) H M i j - matMul (norb a) M H i j)) α β

/-- `∑_{αβ} φ*_α Q_{αβ} ψ_β` -/
def matEl (tot : ℕ) (bra : ℕ → R) (Q : ℕ → ℕ → R) (ket : ℕ → R) : R :=
  ∑ α ∈ range tot, ∑ β ∈ range tot, star (bra α) * Q α β * ket β

/-- `∑_β Q_{αβ} ψ_β` -/
def applyTo (tot : ℕ) (Q : ℕ → ℕ → R) (ket : ℕ → R) (α : ℕ) : R := ∑ β ∈ range tot, Q α β * ket β

/-! ### Proofs -/

theorem sum_window (tot s n : ℕ) (h : s + n ≤ tot) (f : ℕ → R) :
    ∑ α ∈ range tot, (if s ≤ α ∧ α < s + n then f α else 0) = ∑ i ∈ range n, f (s + i) := by
  rw [← Finset.sum_filter]
  have : (range tot).filter (fun α => s ≤ α ∧ α < s + n) = Finset.Ico s (s + n) := by
    ext x; simp only [Finset.mem_filter, Finset.mem_range, Finset.mem_Ico]; omega
  rw [this, Finset.sum_Ico_eq_sum_range]
  simp

theorem firstOrb_le {norb : ℕ → ℕ} {a n : ℕ} (h : a < n) : firstOrb norb a + norb a ≤ firstOrb norb n := by
  unfold firstOrb
  rw [← Finset.sum_range_succ]
  exact Finset.sum_le_sum_of_subset (by intro x; simp only [Finset.mem_range]; omega)

theorem apply_embed {norb : ℕ → ℕ} {a b n : ℕ} (hb : b < n) (X : ℕ → ℕ → R) (ket : ℕ → R) (α : ℕ) :
    applyTo (firstOrb norb n) (embed norb a b X) ket α =
      if OnSite norb a α then ∑ j ∈ range (norb b), X (α - firstOrb norb a) j * ket (firstOrb norb b + j) else 0 := by
  unfold applyTo embed
  by_cases h : OnSite norb a α
  · rw [if_pos h]
    have e : ∀ β, (if OnSite norb a α ∧ OnSite norb b β then X (α - firstOrb norb a) (β - firstOrb norb b) else 0) * ket β =
        if firstOrb norb b ≤ β ∧ β < firstOrb norb b + norb b then X (α - firstOrb norb a) (β - firstOrb norb b) * ket β else 0 := by
      intro β
      by_cases hβ : OnSite norb b β
      · rw [if_pos ⟨h, hβ⟩, if_pos hβ]
      · rw [if_neg (fun hx => hβ hx.2), if_neg hβ, zero_mul]
    rw [Finset.sum_congr rfl fun β _ => e β]
    rw [sum_window (firstOrb norb n) (firstOrb norb b) (norb b) (firstOrb_le hb)
      (fun β => X (α - firstOrb norb a) (β - firstOrb norb b) * ket β)]
    simp
  · simp [h]

theorem matEl_embed {norb : ℕ → ℕ} {a b n : ℕ} (ha : a < n) (hb : b < n) (X : ℕ → ℕ → R) (bra ket : ℕ → R) :
    matEl (firstOrb norb n) bra (embed norb a b X) ket =
      ∑ i ∈ range (norb a), ∑ j ∈ range (norb b), star (bra (firstOrb norb a + i)) * X i j * ket (firstOrb norb b + j) := by
  have : ∀ α, ∑ β ∈ range (firstOrb norb n), star (bra α) * embed norb a b X α β * ket β =
      if firstOrb norb a ≤ α ∧ α < firstOrb norb a + norb a then
        star (bra α) * ∑ j ∈ range (norb b), X (α - firstOrb norb a) j * ket (firstOrb norb b + j) else 0 := by
    intro α
    have := apply_embed (R := R) hb X ket α (a := a) (norb := norb)
    unfold applyTo at this
    simp only [mul_assoc]
    rw [← Finset.mul_sum, this]
    split <;> simp
  unfold matEl
  rw [Finset.sum_congr rfl fun α _ => this α, sum_window _ _ _ (firstOrb_le ha)]
  refine Finset.sum_congr rfl fun i _ => ?_
  rw [Finset.mul_sum]
  refine Finset.sum_congr rfl fun j _ => ?_
  simp [mul_assoc]

theorem loopSum_eq (n : ℕ) (t : R) (g : ℕ → R) : loopSum n t g = t + ∑ i ∈ range n, g i := by
  unfold loopSum
  induction n with
  | zero => simp
  | succ n ih => rw [List.range_succ, List.foldl_append, ih, Finset.sum_range_succ]; simp [add_assoc]

theorem foldl_add (n : ℕ) (t : R) (f : R → ℕ → R) (g : ℕ → R) (h : ∀ t i, f t i = t + g i) :
    (List.range n).foldl f t = t + ∑ i ∈ range n, g i := by
  have : f = fun t i => t + g i := by funext t i; exact h t i
  rw [this]; exact loopSum_eq n t g

theorem foldl_addFun (n : ℕ) (o : ℕ → R) (f : (ℕ → R) → ℕ → (ℕ → R)) (D : ℕ → ℕ → R)
    (h : ∀ o i α, i < n → f o i α = o α + D i α) (α : ℕ) :
    (List.range n).foldl f o α = o α + ∑ i ∈ range n, D i α := by
  induction n with
  | zero => simp
  | succ n ih =>
    rw [List.range_succ, List.foldl_append, Finset.sum_range_succ]
    simp only [List.foldl_cons, List.foldl_nil]
    rw [h _ _ _ (by omega), ih (fun o i α hi => h o i α (by omega)), add_assoc]

theorem densityEl_eq (M : ℕ → R) (bra ket : ℕ → R) (s n : ℕ) :
    densityEl M bra ket s n = ∑ i ∈ range n, ∑ j ∈ range n, star (bra (s + i)) * M (i * n + j) * ket (s + j) := by
  unfold densityEl
  rw [foldl_add n 0 _ (fun i => ∑ j ∈ range n, star (bra (s + i)) * M (i * n + j) * ket (s + j)) (fun t i => loopSum_eq _ _ _),
    zero_add]

theorem currentEl_eq (M H : ℕ → R) (bra ket : ℕ → R) (as aN bs bN : ℕ) :
    currentEl M H bra ket as aN bs bN = CLike.I * ∑ i ∈ range bN, ∑ j ∈ range aN, ∑ k ∈ range aN,
      (star (bra (bs + i)) * star (H (j * bN + i)) * M (j * aN + k) * ket (as + k)
        - star (bra (as + j)) * M (j * aN + k) * H (k * bN + i) * ket (bs + i)) := by
  unfold currentEl
  congr 1
  rw [foldl_add bN 0 _ _ (fun t i => foldl_add aN t _ _ (fun t j => loopSum_eq _ _ _)), zero_add]

theorem sourceTmp_eq (M H : ℕ → R) (ket : ℕ → R) (s n i : ℕ) :
    sourceTmp M H ket s n i = ∑ j ∈ range n, ∑ k ∈ range n,
      (star (H (j * n + i)) * M (j * n + k) * ket (s + k) - M (i * n + j) * H (j * n + k) * ket (s + k)) := by
  unfold sourceTmp
  rw [foldl_add n 0 _ _ (fun t j => loopSum_eq _ _ _), zero_add]

/-- A density block between orbitals: from the loops to the tensor. -/
theorem density_el {norb : ℕ → ℕ} {a n : ℕ} (ha : a < n) (M : ℕ → R) (X : ℕ → ℕ → R)
    (hX : ∀ i < norb a, ∀ j < norb a, M (i * norb a + j) = X i j) (bra ket : ℕ → R) :
    densityEl M bra ket (firstOrb norb a) (norb a) = matEl (firstOrb norb n) bra (densityQ norb a X) ket := by
  unfold densityQ
  rw [densityEl_eq, matEl_embed ha ha]
  refine Finset.sum_congr rfl fun i hi => Finset.sum_congr rfl fun j hj => ?_
  rw [hX i (Finset.mem_range.mp hi) j (Finset.mem_range.mp hj)]

theorem matEl_sub (tot : ℕ) (bra ket : ℕ → R) (c d : R) (X Y : ℕ → ℕ → R) :
    matEl tot bra (fun α β => c * X α β - d * Y α β) ket = c * matEl tot bra X ket - d * matEl tot bra Y ket := by
  unfold matEl
  simp only [Finset.mul_sum, ← Finset.sum_sub_distrib]
  refine Finset.sum_congr rfl fun i _ => Finset.sum_congr rfl fun j _ => ?_
  ring

theorem apply_sub (tot : ℕ) (ket : ℕ → R) (c d : R) (X Y : ℕ → ℕ → R) (α : ℕ) :
    applyTo tot (fun α β => c * X α β - d * Y α β) ket α = c * applyTo tot X ket α - d * applyTo tot Y ket α := by
  unfold applyTo
  simp only [Finset.mul_sum, ← Finset.sum_sub_distrib]
  refine Finset.sum_congr rfl fun j _ => ?_
  ring

theorem current_el {norb : ℕ → ℕ} {a b n : ℕ} (ha : a < n) (hb : b < n) (M H : ℕ → R) (X Y : ℕ → ℕ → R)
    (hX : ∀ i < norb a, ∀ j < norb a, M (i * norb a + j) = X i j)
    (hY : ∀ i < norb a, ∀ j < norb b, H (i * norb b + j) = Y i j) (bra ket : ℕ → R) :
    currentEl M H bra ket (firstOrb norb a) (norb a) (firstOrb norb b) (norb b) =
      matEl (firstOrb norb n) bra (currentQ norb a b X Y) ket := by
  unfold currentQ
  rw [matEl_sub, matEl_embed hb ha, matEl_embed ha hb, currentEl_eq, ← mul_sub]
  congr 1
  simp only [Finset.sum_sub_distrib]
  congr 1
  · refine Finset.sum_congr rfl fun i hi => ?_
    rw [Finset.sum_comm]
    refine Finset.sum_congr rfl fun k hk => ?_
    unfold daggerMul
    rw [Finset.mul_sum, Finset.sum_mul]
    refine Finset.sum_congr rfl fun j hj => ?_
    rw [hX _ (Finset.mem_range.mp hj) _ (Finset.mem_range.mp hk), hY _ (Finset.mem_range.mp hj) _ (Finset.mem_range.mp hi)]
    ring
  · rw [Finset.sum_comm]
    refine Finset.sum_congr rfl fun j hj => Finset.sum_congr rfl fun i hi => ?_
    unfold matMul
    rw [Finset.mul_sum, Finset.sum_mul]
    refine Finset.sum_congr rfl fun k hk => ?_
    rw [hX _ (Finset.mem_range.mp hj) _ (Finset.mem_range.mp hk), hY _ (Finset.mem_range.mp hk) _ (Finset.mem_range.mp hi)]
    ring

theorem sourceTmp_spec {norb : ℕ → ℕ} {a : ℕ} (M H : ℕ → R) (X Y : ℕ → ℕ → R)
    (hX : ∀ i < norb a, ∀ j < norb a, M (i * norb a + j) = X i j)
    (hY : ∀ i < norb a, ∀ j < norb a, H (i * norb a + j) = Y i j) (ket : ℕ → R) (i : ℕ) (hi : i < norb a) (s : ℕ) :
    sourceTmp M H ket s (norb a) i = ∑ k ∈ range (norb a), (daggerMul (norb a) Y X i k - matMul (norb a) X Y i k) * ket (s + k) := by
  rw [sourceTmp_eq]
  rw [Finset.sum_comm]
  refine Finset.sum_congr rfl fun k hk => ?_
  unfold daggerMul matMul
  rw [← Finset.sum_sub_distrib, Finset.sum_mul]
  refine Finset.sum_congr rfl fun j hj => ?_
  rw [hX _ (Finset.mem_range.mp hj) _ (Finset.mem_range.mp hk), hY _ (Finset.mem_range.mp hj) _ hi,
    hX _ hi _ (Finset.mem_range.mp hj), hY _ (Finset.mem_range.mp hj) _ (Finset.mem_range.mp hk)]
  ring

theorem source_el {norb : ℕ → ℕ} {a n : ℕ} (ha : a < n) (M H : ℕ → R) (X Y : ℕ → ℕ → R)
    (hX : ∀ i < norb a, ∀ j < norb a, M (i * norb a + j) = X i j)
    (hY : ∀ i < norb a, ∀ j < norb a, H (i * norb a + j) = Y i j) (bra ket : ℕ → R) :
    sourceEl M H bra ket (firstOrb norb a) (norb a) = matEl (firstOrb norb n) bra (sourceQ norb a X Y) ket := by
  unfold sourceQ
  rw [show (fun α β => embed norb a a (fun i j => (CLike.I : R) * (daggerMul (norb a) Y X i j - matMul (norb a) X Y i j)) α β) =
    embed norb a a (fun i j => (CLike.I : R) * (daggerMul (norb a) Y X i j - matMul (norb a) X Y i j)) from rfl]
  rw [matEl_embed ha ha, sourceEl, loopSum_eq, zero_add, Finset.mul_sum]
  refine Finset.sum_congr rfl fun i hi => ?_
  rw [sourceTmp_spec M H X Y hX hY ket i (Finset.mem_range.mp hi), Finset.mul_sum, Finset.mul_sum]
  refine Finset.sum_congr rfl fun k _ => ?_
  ring

/-! actions -/

theorem update_add (o : ℕ → R) (p : ℕ) (x : R) (α : ℕ) : Function.update o p (o p + x) α = o α + if α = p then x else 0 := by
  rw [Function.update_apply]
  split
  · next h => rw [h]
  · simp

theorem sum_point (s n : ℕ) (f : ℕ → R) (α : ℕ) :
    ∑ i ∈ range n, (if α = s + i then f i else 0) = if s ≤ α ∧ α < s + n then f (α - s) else 0 := by
  by_cases h : s ≤ α ∧ α < s + n
  · rw [if_pos h, Finset.sum_eq_single (α - s)]
    · rw [if_pos (by omega)]
    · intro b _ hb; rw [if_neg (by omega)]
    · intro hx; exact absurd (Finset.mem_range.mpr (by omega)) hx
  · rw [if_neg h]
    refine Finset.sum_eq_zero fun i hi => ?_
    have := Finset.mem_range.mp hi
    rw [if_neg (by omega)]

theorem density_act {norb : ℕ → ℕ} {a n : ℕ} (ha : a < n) (M : ℕ → R) (X : ℕ → ℕ → R)
    (hX : ∀ i < norb a, ∀ j < norb a, M (i * norb a + j) = X i j) (ket out : ℕ → R) (α : ℕ) :
    densityAct M ket (firstOrb norb a) (norb a) out α = out α + applyTo (firstOrb norb n) (densityQ norb a X) ket α := by
  unfold densityQ densityAct
  rw [apply_embed ha, foldl_addFun (norb a) out _ (fun i α => if α = firstOrb norb a + i then
    ∑ j ∈ range (norb a), X i j * ket (firstOrb norb a + j) else 0)]
  · rw [sum_point]
  · intro o i α hi
    rw [update_add, loopSum_eq, zero_add]
    congr 2
    refine Finset.sum_congr rfl fun j hj => ?_
    rw [hX i hi j (Finset.mem_range.mp hj)]

theorem source_act {norb : ℕ → ℕ} {a n : ℕ} (ha : a < n) (M H : ℕ → R) (X Y : ℕ → ℕ → R)
    (hX : ∀ i < norb a, ∀ j < norb a, M (i * norb a + j) = X i j)
    (hY : ∀ i < norb a, ∀ j < norb a, H (i * norb a + j) = Y i j) (ket out : ℕ → R) (α : ℕ) :
    sourceAct M H ket (firstOrb norb a) (norb a) out α = out α + applyTo (firstOrb norb n) (sourceQ norb a X Y) ket α := by
  unfold sourceQ sourceAct
  rw [show (fun α β => embed norb a a (fun i j => (CLike.I : R) * (daggerMul (norb a) Y X i j - matMul (norb a) X Y i j)) α β) =
    embed norb a a (fun i j => (CLike.I : R) * (daggerMul (norb a) Y X i j - matMul (norb a) X Y i j)) from rfl]
  rw [apply_embed ha, foldl_addFun (norb a) out _ (fun i α => if α = firstOrb norb a + i then
    ∑ k ∈ range (norb a), CLike.I * (daggerMul (norb a) Y X i k - matMul (norb a) X Y i k) * ket (firstOrb norb a + k) else 0)]
  · rw [sum_point]
  · intro o i α hi
    rw [update_add, sourceTmp_spec M H X Y hX hY ket i hi, Finset.mul_sum]
    simp only [mul_assoc]

theorem currentActStep_eq (M H : ℕ → R) (ket : ℕ → R) (as aN bs bN i j : ℕ) (o : ℕ → R) (k α : ℕ) :
    currentActStep M H ket as aN bs bN i j o k α = o α +
      ((if α = bs + i then CLike.I * star (H (j * bN + i)) * M (j * aN + k) * ket (as + k) else 0)
        - if α = as + j then CLike.I * M (j * aN + k) * H (k * bN + i) * ket (bs + i) else 0) := by
  unfold currentActStep
  rw [sub_eq_add_neg, update_add, update_add]
  split <;> split <;> ring

theorem current_act {norb : ℕ → ℕ} {a b n : ℕ} (ha : a < n) (hb : b < n) (M H : ℕ → R) (X Y : ℕ → ℕ → R)
    (hX : ∀ i < norb a, ∀ j < norb a, M (i * norb a + j) = X i j)
    (hY : ∀ i < norb a, ∀ j < norb b, H (i * norb b + j) = Y i j) (ket out : ℕ → R) (α : ℕ) :
    currentAct M H ket (firstOrb norb a) (norb a) (firstOrb norb b) (norb b) out α =
      out α + applyTo (firstOrb norb n) (currentQ norb a b X Y) ket α := by
  unfold currentAct currentQ
  rw [apply_sub, apply_embed ha, apply_embed hb]
  rw [foldl_addFun (norb b) out _ (fun i α => ∑ j ∈ range (norb a), ∑ k ∈ range (norb a),
      ((if α = firstOrb norb b + i then CLike.I * star (H (j * norb b + i)) * M (j * norb a + k) * ket (firstOrb norb a + k) else 0)
        - if α = firstOrb norb a + j then CLike.I * M (j * norb a + k) * H (k * norb b + i) * ket (firstOrb norb b + i) else 0))]
  · congr 1
    simp only [Finset.sum_sub_distrib]
    congr 1
    · have : ∀ i ∈ range (norb b), (∑ j ∈ range (norb a), ∑ k ∈ range (norb a),
          if α = firstOrb norb b + i then CLike.I * star (H (j * norb b + i)) * M (j * norb a + k) * ket (firstOrb norb a + k) else 0) =
          if α = firstOrb norb b + i then CLike.I * ∑ k ∈ range (norb a), daggerMul (norb a) Y X i k * ket (firstOrb norb a + k) else 0 := by
        intro i hi
        split
        · rw [Finset.sum_comm, Finset.mul_sum]
          refine Finset.sum_congr rfl fun k hk => ?_
          unfold daggerMul
          rw [Finset.sum_mul, Finset.mul_sum]
          refine Finset.sum_congr rfl fun j hj => ?_
          rw [hX _ (Finset.mem_range.mp hj) _ (Finset.mem_range.mp hk), hY _ (Finset.mem_range.mp hj) _ (Finset.mem_range.mp hi)]
          ring
        · simp
      rw [Finset.sum_congr rfl this, sum_point]
      split <;> simp
    · rw [Finset.sum_comm]
      have : ∀ j ∈ range (norb a), (∑ i ∈ range (norb b), ∑ k ∈ range (norb a),
          if α = firstOrb norb a + j then CLike.I * M (j * norb a + k) * H (k * norb b + i) * ket (firstOrb norb b + i) else 0) =
          if α = firstOrb norb a + j then CLike.I * ∑ i ∈ range (norb b), matMul (norb a) X Y j i * ket (firstOrb norb b + i) else 0 := by
        intro j hj
        split
        · rw [Finset.mul_sum]
          refine Finset.sum_congr rfl fun i hi => ?_
          unfold matMul
          rw [Finset.sum_mul, Finset.mul_sum]
          refine Finset.sum_congr rfl fun k hk => ?_
          rw [hX _ (Finset.mem_range.mp hj) _ (Finset.mem_range.mp hk), hY _ (Finset.mem_range.mp hk) _ (Finset.mem_range.mp hi)]
          ring
        · simp
      rw [Finset.sum_congr rfl this, sum_point]
      split <;> simp
  · intro o i α _
    refine foldl_addFun (norb a) o _ (fun j α => ∑ k ∈ range (norb a),
      ((if α = firstOrb norb b + i then CLike.I * star (H (j * norb b + i)) * M (j * norb a + k) * ket (firstOrb norb a + k) else 0)
        - if α = firstOrb norb a + j then CLike.I * M (j * norb a + k) * H (k * norb b + i) * ket (firstOrb norb b + i) else 0))
      (fun o j α _ => ?_) α
    exact foldl_addFun (norb a) o _ (fun k α => _) (fun o k α _ => currentActStep_eq M H ket _ _ _ _ i j o k α) α

/-! Hermiticity of the tensors -/

theorem embed_star (norb : ℕ → ℕ) (a b : ℕ) (X : ℕ → ℕ → R) (α β : ℕ) :
    star (embed norb a b X α β) = embed norb b a (fun i j => star (X j i)) β α := by
  unfold embed
  by_cases h : OnSite norb a α ∧ OnSite norb b β
  · rw [if_pos h, if_pos h.symm]
  · rw [if_neg h, if_neg (fun hx => h hx.symm), star_zero]

/-- `M` is Hermitian on a site with `n` orbitals. -/
def HermOn (n : ℕ) (M : ℕ → ℕ → R) : Prop := ∀ i < n, ∀ j < n, star (M i j) = M j i

theorem densityQ_herm {norb : ℕ → ℕ} {a : ℕ} {M : ℕ → ℕ → R} (h : HermOn (norb a) M) (α β : ℕ) :
    star (densityQ norb a M α β) = densityQ norb a M β α := by
  unfold densityQ
  rw [embed_star]
  unfold embed
  split
  · next hx =>
    obtain ⟨h1, h2⟩ := hx
    unfold OnSite at h1 h2
    exact h _ (by omega) _ (by omega)
  · rfl

theorem dagger_star {n : ℕ} {M H : ℕ → ℕ → R} (h : HermOn n M) (i : ℕ) {k : ℕ} (hk : k < n) :
    star (daggerMul n H M i k) = matMul n M H k i := by
  unfold daggerMul matMul
  rw [star_sum]
  refine Finset.sum_congr rfl fun j hj => ?_
  rw [star_mul, star_star, h _ (Finset.mem_range.mp hj) _ hk]

theorem matMul_star {n : ℕ} {M H : ℕ → ℕ → R} (h : HermOn n M) (i : ℕ) {k : ℕ} (hk : k < n) :
    star (matMul n M H k i) = daggerMul n H M i k := by rw [← dagger_star h i hk, star_star]

theorem currentQ_herm {norb : ℕ → ℕ} {a b : ℕ} {M H : ℕ → ℕ → R} (h : HermOn (norb a) M) (α β : ℕ) :
    star (currentQ norb a b M H α β) = currentQ norb a b M H β α := by
  unfold currentQ
  rw [star_sub, star_mul', star_mul', CLike.star_I, embed_star, embed_star]
  have e1 : embed norb a b (fun i j => star (daggerMul (norb a) H M j i)) β α = embed norb a b (matMul (norb a) M H) β α := by
    unfold embed
    split
    · next hx => obtain ⟨h1, h2⟩ := hx; unfold OnSite at h1; exact dagger_star h _ (by omega)
    · rfl
  have e2 : embed norb b a (fun i j => star (matMul (norb a) M H j i)) β α = embed norb b a (daggerMul (norb a) H M) β α := by
    unfold embed
    split
    · next hx => obtain ⟨h1, h2⟩ := hx; unfold OnSite at h2; exact matMul_star h _ (by omega)
    · rfl
  rw [e1, e2]; ring

theorem sourceQ_herm {norb : ℕ → ℕ} {a : ℕ} {M H : ℕ → ℕ → R} (h : HermOn (norb a) M) (α β : ℕ) :
    star (sourceQ norb a M H α β) = sourceQ norb a M H β α := by
  unfold sourceQ
  rw [embed_star]
  unfold embed
  split
  · next hx =>
    obtain ⟨h1, h2⟩ := hx
    unfold OnSite at h1 h2
    show star (CLike.I * _) = CLike.I * _
    rw [star_mul', CLike.star_I, star_sub, dagger_star h _ (by omega), matMul_star h _ (by omega)]; ring
  · rfl

theorem matEl_real (tot : ℕ) (Q : ℕ → ℕ → R) (h : ∀ α β, star (Q α β) = Q β α) (ψ : ℕ → R) :
    star (matEl tot ψ Q ψ) = matEl tot ψ Q ψ := by
  unfold matEl
  rw [star_sum]
  simp only [star_sum, star_mul, star_star, h]
  rw [Finset.sum_comm]
  refine Finset.sum_congr rfl fun i _ => Finset.sum_congr rfl fun j _ => ?_
  ring

end
end Kwant.Oper
