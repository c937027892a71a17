import Verif.Kpm.History
import Mathlib.RingTheory.Polynomial.Chebyshev
import Mathlib.LinearAlgebra.Matrix.Hermitian
import Mathlib.Data.Matrix.Mul
import Mathlib.Algebra.Polynomial.AlgebraMap
import Mathlib.LinearAlgebra.Matrix.DotProduct
import Mathlib.Data.Complex.BigOperators
import Mathlib.Tactic.NoncommRing
import Mathlib.Tactic.LinearCombination

/-! The moments of `SpectralDensity` (C119). -/

set_option linter.unusedSectionVars false

namespace Kwant.Kpm
open Polynomial Matrix

/-! ### Specification -/

/-- `⟨u|w⟩`, what `np.vdot` calculates. -/
def vdot {d : ℕ} (u w : Fin d → ℂ) : ℂ := ∑ i, star (u i) * w i

/-- The Hamiltonian mapped to the interval: `(H - b) / a`. -/
noncomputable def scaled {d : ℕ} (H : Matrix (Fin d) (Fin d) ℂ) (a b : ℝ) : Matrix (Fin d) (Fin d) ℂ := (a : ℂ)⁻¹ • (H - (b : ℂ) • (1 : Matrix _ _ ℂ))

/-- `T_n((H - b) / a)` with Mathlib's Chebyshev polynomials. -/
noncomputable def chebT {d : ℕ} (H : Matrix (Fin d) (Fin d) ℂ) (a b : ℝ) (n : ℕ) : Matrix (Fin d) (Fin d) ℂ :=
  aeval (scaled H a b) (Chebyshev.T ℂ (n : ℤ))

/-! ### Proofs -/

section
variable {d : ℕ} (H : Matrix (Fin d) (Fin d) ℂ) (a b : ℝ)

theorem rescaled_eq (v : Fin d → ℂ) : rescaled (fun v => H.mulVec v) a b v = (scaled H a b).mulVec v := by
  unfold rescaled scaled
  rw [smul_mulVec, sub_mulVec, smul_mulVec, one_mulVec]

theorem chebT_zero : chebT H a b 0 = 1 := by
  unfold chebT; simp [Chebyshev.T_zero]

theorem chebT_one : chebT H a b 1 = scaled H a b := by
  unfold chebT; simp [Chebyshev.T_one]

theorem chebT_add_two (n : ℕ) : chebT H a b (n + 2) = (2 : ℂ) • (scaled H a b * chebT H a b (n + 1)) - chebT H a b n := by
  unfold chebT
  push_cast
  rw [Chebyshev.T_add_two]
  rw [map_sub, map_mul, map_mul, aeval_X]
  congr 1
  rw [map_ofNat, mul_assoc]
  rw [show (2 : Matrix (Fin d) (Fin d) ℂ) = (2 : ℂ) • 1 from by
    rw [show (2 : Matrix (Fin d) (Fin d) ℂ) = (1 : Matrix _ _ ℂ) + 1 by norm_num, show (2 : ℂ) = 1 + 1 by norm_num, add_smul, one_smul],
    smul_mul_assoc, one_mul]

theorem cheb_eq (v : Fin d → ℂ) (n : ℕ) : cheb (rescaled (fun v => H.mulVec v) a b) v n = (chebT H a b n).mulVec v := by
  induction n using Nat.strong_induction_on with
  | _ n ih =>
    match n with
    | 0 => rw [chebT_zero, one_mulVec]; rfl
    | 1 => rw [chebT_one]; exact rescaled_eq H a b v
    | n + 2 =>
      show (2 : ℂ) • rescaled (fun v => H.mulVec v) a b (cheb _ v (n + 1)) - cheb _ v n = _
      rw [ih (n + 1) (by omega), ih n (by omega), rescaled_eq, chebT_add_two, sub_mulVec, smul_mulVec, mulVec_mulVec]

theorem scaled_herm (hH : H.IsHermitian) : (scaled H a b).IsHermitian := by
  unfold scaled Matrix.IsHermitian
  rw [conjTranspose_smul, conjTranspose_sub, conjTranspose_smul, conjTranspose_one, hH.eq]
  simp

theorem chebT_comm (m n : ℕ) : chebT H a b m * chebT H a b n = chebT H a b n * chebT H a b m := by
  unfold chebT
  rw [← map_mul, ← map_mul, mul_comm]

theorem chebT_herm (hH : H.IsHermitian) (n : ℕ) : (chebT H a b n).IsHermitian := by
  induction n using Nat.strong_induction_on with
  | _ n ih =>
    match n with
    | 0 => rw [chebT_zero]; exact isHermitian_one
    | 1 => rw [chebT_one]; exact scaled_herm H a b hH
    | n + 2 =>
      unfold Matrix.IsHermitian
      rw [chebT_add_two, conjTranspose_sub, conjTranspose_smul, conjTranspose_mul, (ih (n + 1) (by omega)).eq, (ih n (by omega)).eq,
        (scaled_herm H a b hH).eq, ← chebT_one, chebT_comm]
      simp

theorem chebT_mul (m k : ℕ) : (2 : ℂ) • (chebT H a b (m + k) * chebT H a b m) = chebT H a b (2 * m + k) + chebT H a b k := by
  unfold chebT
  rw [← map_mul, ← map_smul, ← map_add]
  congr 1
  have := Chebyshev.T_mul_T ℂ ((m + k : ℕ) : ℤ) (m : ℤ)
  rw [show ((m + k : ℕ) : ℤ) + m = ((2 * m + k : ℕ) : ℤ) by push_cast; ring, show ((m + k : ℕ) : ℤ) - m = (k : ℤ) by push_cast; ring] at this
  rw [← this, smul_eq_C_mul, ← mul_assoc]
  rfl

theorem vdot_eq (u w : Fin d → ℂ) : vdot u w = star u ⬝ᵥ w := rfl

theorem vdot_mulVec (A B : Matrix (Fin d) (Fin d) ℂ) (hA : A.IsHermitian) (v : Fin d → ℂ) : vdot (A.mulVec v) (B.mulVec v) = vdot v ((A * B).mulVec v) := by
  rw [vdot_eq, vdot_eq, star_mulVec, hA.eq, ← dotProduct_mulVec, mulVec_mulVec]

theorem doubling (hH : H.IsHermitian) (v : Fin d → ℂ) : Doubling vdot (rescaled (fun v => H.mulVec v) a b) v := by
  have key : ∀ m k, (2 : ℕ) • vdot ((chebT H a b (m + k)).mulVec v) ((chebT H a b m).mulVec v) - vdot v ((chebT H a b k).mulVec v)
      = vdot v ((chebT H a b (2 * m + k)).mulVec v) := by
    intro m k
    rw [vdot_mulVec _ _ (chebT_herm H a b hH _), two_nsmul, ← two_mul, vdot_eq, vdot_eq, vdot_eq]
    rw [← smul_eq_mul, ← dotProduct_smul, ← smul_mulVec, chebT_mul, add_mulVec, dotProduct_add]
    ring
  constructor
  · intro n
    have := key n 0
    rw [chebT_zero, one_mulVec, Nat.add_zero, Nat.add_zero] at this
    rw [cheb_eq, cheb_eq]; exact this
  · intro n
    have := key n 1
    rw [chebT_one] at this
    rw [cheb_eq, cheb_eq, cheb_eq, rescaled_eq]; exact this

end

/-! ### Theorems -/

section
variable {d : ℕ} {W : Type} [AddCommGroup W]

/-- The vector space of the wave functions. -/
abbrev Vec (d : ℕ) := Fin d → ℂ

/-- Objects a user can get: the constructor succeeded with an iterable that provides the vectors `src`, and any calls of `add_moments` and
`add_vectors` followed, successful or not. -/
def Reachable (H : Matrix (Fin d) (Fin d) ℂ) (kind : OpKind (Vec d) W) (src : ℕ → Vec d) (len : Option ℕ) (acc : Bool) (a b : ℝ) (s : SD (Vec d) W) : Prop :=
  ∃ eps lmin lmax nm er source nvec s0 cs, Avail len source src ∧ rescale eps lmin lmax = .ok (a, b) ∧
    SD.init (fun v => H.mulVec v) kind eps lmin lmax nm er source len nvec acc = .ok s0 ∧ s = s0.calls cs

theorem kindOk_of (H : Matrix (Fin d) (Fin d) ℂ) (kind : OpKind (Vec d) W) (hk : ∀ a b v, KindOk kind (rescaled (fun v => H.mulVec v) a b) v)
    (src : ℕ → Vec d) (len : Option ℕ) (acc : Bool) (a b : ℝ) (s : SD (Vec d) W) (hs : Reachable H kind src len acc a b s) :
    ∃ N nv source, 0 < nv ∧ Avail len source src ∧ Good ⟨fun v => H.mulVec v, kind, a, b, acc, len, src, source⟩ N nv s := by
  obtain ⟨eps, lmin, lmax, nm, er, source, nvec, s0, cs, hav, hr, hi, rfl⟩ := hs
  obtain ⟨a', b', N, nv, hr', _, hnv, _, G⟩ := init_good _ kind eps lmin lmax nm er source len nvec acc src s0 (fun k _ hm i hi => hav i fun m h => lt_of_lt_of_le hi (hm m h)) (fun a b v _ => hk a b v) hi
  rw [hr] at hr'
  injection hr' with hr'
  obtain ⟨rfl, rfl⟩ := Prod.mk.inj hr'
  obtain ⟨N', nv', _, h2, G'⟩ := calls_good (fun v => hk a b v) G hav cs
  exact ⟨N', nv', source, by omega, hav, G'⟩

theorem dos_ok (H : Matrix (Fin d) (Fin d) ℂ) (hH : H.IsHermitian) (a b : ℝ) (v : Vec d) : KindOk (.dos vdot) (rescaled (fun v => H.mulVec v) a b) v :=
  doubling H a b hH v

/-- C119 (density of states).  After the construction and any sequence of calls, element `n` of the list of vector `r` is
`⟨v_r| T_n((H - b) / a) |v_r⟩`, for all vectors and all moments that the object reports. -/
theorem C119_moments_dos (H : Matrix (Fin d) (Fin d) ℂ) (hH : H.IsHermitian) (src : ℕ → Vec d) (len : Option ℕ) (acc : Bool) (a b : ℝ)
    (s : SD (Vec d) ℂ) (hs : Reachable H (.dos vdot) src len acc a b s) :
    s.moments = (List.range s.numVectors).map fun r => (List.range s.numMoments).map fun n => vdot (src r) ((chebT H a b n).mulVec (src r)) := by
  obtain ⟨N, nv, source, _, hav, G⟩ := kindOk_of H _ (dos_ok H hH) src len acc a b s hs
  rw [G.numVectors, G.num, G.moments]
  refine List.map_congr_left fun r _ => List.map_congr_left fun n _ => ?_
  show vdot (src r) (cheb (rescaled (fun v => H.mulVec v) a b) (src r) n) = _
  rw [cheb_eq]

/-- C119 (with an operator).  The same with `operator(v_r, T_n((H - b) / a) v_r)`, for any matrix and any operator. -/
theorem C119_moments_op (H : Matrix (Fin d) (Fin d) ℂ) (f : Vec d → Vec d → W) (src : ℕ → Vec d) (len : Option ℕ) (acc : Bool) (a b : ℝ)
    (s : SD (Vec d) W) (hs : Reachable H (.op f) src len acc a b s) :
    s.moments = (List.range s.numVectors).map fun r => (List.range s.numMoments).map fun n => f (src r) ((chebT H a b n).mulVec (src r)) := by
  obtain ⟨N, nv, source, _, hav, G⟩ := kindOk_of H (.op f) (fun _ _ _ => trivial) src len acc a b s hs
  rw [G.numVectors, G.num, G.moments]
  refine List.map_congr_left fun r _ => List.map_congr_left fun n _ => ?_
  show f (src r) (cheb (rescaled (fun v => H.mulVec v) a b) (src r) n) = _
  rw [cheb_eq]

/-- C119 (calls).  `add_vectors` on a reachable object is refused with the object unchanged, or the number of vectors is increased by the
argument; it is refused exactly if the argument is not a positive integer or the iterable does not have that many more vectors.  `add_moments` likewise; with a
number it is refused exactly if the number is not positive or vectors are not accumulated. -/
theorem C119_calls (H : Matrix (Fin d) (Fin d) ℂ) (kind : OpKind (Vec d) W) (hk : ∀ a b v, KindOk kind (rescaled (fun v => H.mulVec v) a b) v)
    (src : ℕ → Vec d) (len : Option ℕ) (acc : Bool) (a b : ℝ) (s : SD (Vec d) W) (hs : Reachable H kind src len acc a b s) :
    (∀ n, (∃ s' k, n = some ((k : ℕ) : ℤ) ∧ 0 < k ∧ (∀ m, len = some m → s.numVectors + k ≤ m) ∧
        s.addVectors n = (s', none) ∧ s'.numVectors = s.numVectors + k ∧ s'.numMoments = s.numMoments) ∨
      (∃ e, s.addVectors n = (s, some e)) ∧ ¬ ∃ k : ℕ, n = some (k : ℤ) ∧ 0 < k ∧ ∀ m, len = some m → s.numVectors + k ≤ m) ∧
    (∀ n, (∃ s' k, n = some ((k : ℕ) : ℤ) ∧ 0 < k ∧ acc = true ∧ s.addMoments n none = (s', none) ∧ s'.numMoments = s.numMoments + k ∧ s'.numVectors = s.numVectors) ∨
      (∃ e, s.addMoments n none = (s, some e)) ∧ ¬ ((∃ k : ℕ, n = some (k : ℤ) ∧ 0 < k) ∧ acc = true)) ∧
    ∀ n er, (∃ e, s.addMoments n er = (s, some e)) ∨
      ∃ s', s.addMoments n er = (s', none) ∧ s.numMoments < s'.numMoments ∧ s'.numVectors = s.numVectors := by
  obtain ⟨N, nv, source, _, hav, G⟩ := kindOk_of H kind hk src len acc a b s hs
  refine ⟨fun n => ?_, fun n => ?_, fun n er => ?_⟩
  · rcases addVectors_good (hk a b) G n (Avail.enough hav _ _) with ⟨e, he, hne⟩ | ⟨k', s', hn', hk', he, G'⟩
    · right
      refine ⟨⟨e, he⟩, ?_⟩
      rw [G.numVectors]; exact hne
    · refine Or.inl ⟨s', k', hn', hk', fun m hm => ?_, he, by rw [G'.numVectors, G.numVectors], by rw [G'.num, G.num]⟩
      have := G'.fac.cap m hm
      rw [G'.inv.hnv] at this
      rw [G.numVectors]; exact this
  · rcases addMoments_good (hk a b) G n none with ⟨e, he, hne⟩ | ⟨k, s', hk0, hn, he, G', ha⟩
    · exact Or.inr ⟨⟨e, he⟩, fun h => hne ⟨h.2, rfl, h.1⟩⟩
    · rcases hn with ⟨hn, -⟩ | ⟨-, hn⟩
      · exact Or.inl ⟨s', k, hn, hk0, ha, he, by rw [G'.num, G.num], by rw [G'.numVectors, G.numVectors]⟩
      · cases hn
  · rcases addMoments_good (hk a b) G n er with ⟨e, he, _⟩ | ⟨k, s', hk0, hn, he, G', ha⟩
    · exact Or.inl ⟨e, he⟩
    · exact Or.inr ⟨s', he, by rw [G'.num, G.num]; omega, by rw [G'.numVectors, G.numVectors]⟩

/-- C119 (histories do not matter).  Two reachable objects for the same Hamiltonian, scale and vectors with the same numbers of moments and
vectors have the same moments, whatever calls led to them. -/
theorem C119_history (H : Matrix (Fin d) (Fin d) ℂ) (kind : OpKind (Vec d) W) (hk : ∀ a b v, KindOk kind (rescaled (fun v => H.mulVec v) a b) v)
    (src : ℕ → Vec d) (len len' : Option ℕ) (acc acc' : Bool) (a b : ℝ) (s s' : SD (Vec d) W) (hs : Reachable H kind src len acc a b s)
    (hs' : Reachable H kind src len' acc' a b s') (h1 : s.numMoments = s'.numMoments) (h2 : s.numVectors = s'.numVectors) :
    s.moments = s'.moments := by
  obtain ⟨N, nv, source, _, hav, G⟩ := kindOk_of H kind hk src len acc a b s hs
  obtain ⟨N', nv', _, _, _, G'⟩ := kindOk_of H kind hk src len' acc' a b s' hs'
  rw [G.num, G'.num] at h1
  rw [G.numVectors, G'.numVectors] at h2
  rw [G.moments, G'.moments, h1, h2]
  rfl

/-- The constructor succeeds if there are enough vectors. -/
theorem init_ok (H : Matrix (Fin d) (Fin d) ℂ) (kind : OpKind (Vec d) W) (hk : ∀ a b v, KindOk kind (rescaled (fun v => H.mulVec v) a b) v)
    (eps lmin lmax a b : ℝ) (heps : 0 < eps) (hr : rescale eps lmin lmax = .ok (a, b)) (N k : ℕ) (hN : 2 ≤ N) (hk0 : 0 < k)
    (source : ℕ → Option (Vec d)) (src : ℕ → Vec d) (len : Option ℕ) (acc : Bool) (hav : ∀ i < k, source i = some (src i)) (hlen : ∀ m, len = some m → k ≤ m) :
    ∃ s, SD.init (fun v => H.mulVec v) kind eps lmin lmax (some N) none source len (some k) acc = .ok s ∧
      s.numMoments = N ∧ s.numVectors = k := by
  have F0 : FInv (W := W) ⟨fun v => H.mulVec v, kind, a, b, acc, len, src, source⟩ (Factory.mk source 0 len acc [] 0 none none) 0 :=
    ⟨rfl, rfl, rfl, fun i hi => absurd hi (Nat.not_lt_zero i), rfl, le_refl _, fun m _ => Nat.zero_le m, fun _ => ⟨rfl, fun i hi => absurd hi (Nat.not_lt_zero i)⟩, fun l hl => by cases hl⟩
  unfold SD.init
  rw [if_neg (by simp), if_neg (not_le.mpr heps), hr]
  simp only
  have hm : initMoments a (some (N : ℤ)) none = .ok N := by
    unfold initMoments
    simp
    omega
  rw [hm]
  simp only
  rcases F0.addVectors (some (k : ℤ)) (fun k' h _ i hi => hav i (by injection h with h; simp only at hi; omega)) with ⟨e, he, hne⟩ | ⟨f, k', hn, _, he, hf, F⟩
  · exact absurd ⟨k, rfl, hk0, fun m hm => by simp only [Nat.zero_add]; exact hlen m hm⟩ hne
  · have e1 : k' = k := by injection hn with h; omega
    subst e1
    have hfi : Factory.init source len (some (k' : ℤ)) acc = .ok f := by
      unfold Factory.init wanted
      simp only
      rw [he]
    rw [hfi]
    simp only [Nat.zero_add] at hf
    obtain ⟨s', e', G'⟩ := update_new (W := W) ⟨fun v => H.mulVec v, kind, a, b, acc, len, src, source⟩ (hk a b) N 0 k' hN hk0
      (SD.mk (fun v => H.mulVec v) kind a b f N [] [])
      ⟨rfl, rfl, rfl, rfl, rfl, rfl, rfl, fun i hi => absurd hi (Nat.not_lt_zero i), fun _ i hi => absurd hi (Nat.not_lt_zero i),
        fun i _ hi => absurd hi (Nat.not_lt_zero i), fun _ i _ hi => absurd hi (Nat.not_lt_zero i)⟩ F (by rw [Nat.zero_add]; exact hf) rfl
    rw [Nat.zero_add] at e' G'
    simp only
    rw [hf, e']
    exact ⟨s', rfl, G'.num, G'.numVectors⟩

/-- C119 (construction).  With a positive `eps`, bounds that are accepted, at least two moments and a positive number of vectors, not more than there
are, the constructor succeeds with these numbers of moments and vectors. -/
theorem C119_init (H : Matrix (Fin d) (Fin d) ℂ) (kind : OpKind (Vec d) W) (hk : ∀ a b v, KindOk kind (rescaled (fun v => H.mulVec v) a b) v)
    (eps lmin lmax a b : ℝ) (heps : 0 < eps) (hr : rescale eps lmin lmax = .ok (a, b)) (N k : ℕ) (hN : 2 ≤ N) (hk0 : 0 < k)
    (source : ℕ → Option (Vec d)) (src : ℕ → Vec d) (len : Option ℕ) (acc : Bool) (hav : Avail len source src) (hlen : ∀ m, len = some m → k ≤ m) :
    ∃ s, SD.init (fun v => H.mulVec v) kind eps lmin lmax (some N) none source len (some k) acc = .ok s ∧
      s.numMoments = N ∧ s.numVectors = k ∧ Reachable H kind src len acc a b s := by
  obtain ⟨s, h1, h2, h3⟩ := init_ok H kind hk eps lmin lmax a b heps hr N k hN hk0 source src len acc
    (fun i hi => hav i fun m hm => lt_of_lt_of_le hi (hlen m hm)) hlen
  exact ⟨s, h1, h2, h3, eps, lmin, lmax, some N, none, source, some k, s, [], hav, hr, h1, rfl⟩

/-- The documentation allows every positive number of moments, but one moment is never accepted (`IndexError`). -/
theorem C119_counterexample (H : Matrix (Fin d) (Fin d) ℂ) (kind : OpKind (Vec d) W) (hk : ∀ a b v, KindOk kind (rescaled (fun v => H.mulVec v) a b) v)
    (eps lmin lmax : ℝ) (source : ℕ → Option (Vec d)) (src : ℕ → Vec d) (len : Option ℕ) (nvec : Option ℤ) (acc : Bool) (hav : Avail len source src) :
    ∃ e, SD.init (fun v => H.mulVec v) kind eps lmin lmax (some 1) none source len nvec acc = .error e := by
  cases hi : SD.init (fun v => H.mulVec v) kind eps lmin lmax (some 1) none source len nvec acc with
  | error e => exact ⟨e, rfl⟩
  | ok s =>
    exfalso
    obtain ⟨a, b, N, nv, _, hN, _, _, G⟩ := init_good _ kind eps lmin lmax (some 1) none source len nvec acc src s (fun k _ hm i hi => hav i fun m h => lt_of_lt_of_le hi (hm m h)) (fun a b v _ => hk a b v) hi
    unfold initMoments at hN
    simp at hN
    have := G.two
    omega

/-- A Hamiltonian with the levels 1 and -1. -/
def exH : Matrix (Fin 2) (Fin 2) ℂ := !![0, 1; 1, 0]

theorem exH_herm : exH.IsHermitian := by
  ext i j; fin_cases i <;> fin_cases j <;> simp [exH, Matrix.conjTranspose]

/-- Vectors `(1, r)`. -/
def exSrc (r : ℕ) : Vec 2 := ![1, r]

theorem exRescale : rescale 1 (-1) 1 = .ok (2, 0) := by
  unfold rescale
  rw [if_neg (by norm_num), if_neg (by norm_num)]
  norm_num

/-- The hypotheses can be met: five moments of three vectors; moment 2 of vector `(1, 2)` is `2 ⟨v|(H/2)²|v⟩ - ⟨v|v⟩ = -5/2`. -/
theorem C119_example : ∃ s, Reachable exH (.dos vdot) exSrc none true 2 0 s ∧ s.numMoments = 5 ∧ s.numVectors = 3 ∧
    (s.moments.getD 2 []).getD 2 0 = -(5 / 2) := by
  obtain ⟨s, _, h2, h3, h4⟩ := C119_init exH (.dos vdot) (dos_ok exH exH_herm) 1 (-1) 1 2 0 one_pos exRescale 5 3 (by norm_num) (by norm_num)
    (fun r => some (exSrc r)) exSrc none true (fun i _ => rfl) (fun m hm => by cases hm)
  refine ⟨s, h4, h2, h3, ?_⟩
  rw [C119_moments_dos exH exH_herm exSrc none true 2 0 s h4, h2, h3]
  simp only [List.range, List.range.loop, List.map_cons, List.map_nil, List.getD_cons_succ, List.getD_cons_zero]
  have e2 := chebT_add_two exH 2 0 0
  rw [chebT_zero, zero_add, chebT_one] at e2
  rw [e2]
  simp only [scaled, exH, vdot, exSrc, Fin.sum_univ_two]
  simp [Matrix.mul_fin_two, Matrix.one_fin_two]
  norm_num

end
end Kwant.Kpm
