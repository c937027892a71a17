import Verif.Kpm.Corr
import Mathlib.Analysis.SpecificLimits.Normed

/-! The moments matrix and the integrand of `Correlator` (C124). -/

set_option linter.unusedSectionVars false

namespace Kwant.Kpm
open Polynomial Finset
open Matrix hiding map_apply

variable {d : ℕ}

/-! ### Construction and histories -/

/-- The constructor: if it returns an object, everything agrees. -/
theorem init_sync (H : Matrix (Fin d) (Fin d) ℂ) (op1 op2 : Vec d → Vec d) (kernel : Kernel ℝ) (eps lmin lmax a b : ℝ) (h2 : eps < 2)
    (hr : rescale eps lmin lmax = .ok (a, b)) (nm : Option ℤ) (er : Option ℝ) (source : ℕ → Option (Vec d)) (src : ℕ → Vec d) (len : Option ℕ)
    (hav : Avail len source src) (nvec : Option ℤ) (acc : Bool) (c : Cor d)
    (hi : Cor.init (fun v => H.mulVec v) op1 op2 kernel eps lmin lmax nm er source len nvec acc = .ok c) :
    ∃ N nv, 0 < nv ∧ Sync H src source len acc N nv c ∧ c.a = a ∧ c.b = b ∧ c.op1 = op1 ∧ c.op2 = op2 ∧ c.kernel = kernel := by
  unfold Cor.init at hi
  cases hR : SD.init (fun v => H.mulVec v) fakeOp eps lmin lmax nm er source len nvec true with
  | error e => rw [hR] at hi; cases hi
  | ok R =>
    rw [hR] at hi
    simp only at hi
    have h0 : 0 < eps := by
      by_contra h
      unfold SD.init at hR
      split at hR
      · cases hR
      · rw [if_pos (not_lt.mp h)] at hR; cases hR
    obtain ⟨a', b', N, nv, hr', _, hnv, _, gR⟩ := init_good _ fakeOp eps lmin lmax nm er source len nvec true src R
      (fun k _ hm i hi => hav i fun m h => lt_of_lt_of_le hi (hm m h)) (fun _ _ v _ => fakeOk _ v) hR
    rw [hr] at hr'
    injection hr' with hr'
    obtain ⟨rfl, rfl⟩ := Prod.mk.inj hr'
    have ea : R.a = a := gR.inv.a
    have eb : R.b = b := gR.inv.b
    rw [ea, eb] at hi
    have hr2 := C120_again eps lmin lmax a b h0 h2 hr
    cases hL : SD.init (fun v => H.mulVec v) fakeOp eps (b - a * (1 - eps / 2)) (b + a * (1 - eps / 2)) (some (R.numMoments : ℤ)) none (linked op1 R.factory) none
        (some (R.numVectors : ℤ)) acc with
    | error e => rw [hL] at hi; cases hi
    | ok L =>
      rw [hL] at hi
      simp only at hi
      obtain ⟨a'', b'', N', nv', hr'', hN', _, hn', gL'⟩ := init_good _ fakeOp _ _ _ _ _ (linked op1 R.factory) none _ acc (fun i => op1 (src i)) L
        (fun k hk _ i hi => linked_eq gR.fac rfl op1 i (by rw [gR.numVectors] at hk; simp only [Option.getD_some] at hk; omega)) (fun _ _ v _ => fakeOk _ v) hL
      rw [hr2] at hr''
      injection hr'' with hr''
      obtain ⟨rfl, rfl⟩ := Prod.mk.inj hr''
      have en : nv' = nv := by rw [gR.numVectors] at hn'; simp only [Option.getD_some] at hn'; omega
      have eN : N' = N := by
        unfold initMoments at hN'
        have := gR.two
        rw [gR.num, if_neg (by simp)] at hN'
        simp only [Option.getD_none, ne_eq, not_true_eq_false, if_false, Option.getD_some] at hN'
        rw [if_neg (by omega)] at hN'
        injection hN' with hN'
        omega
      subst en eN
      obtain ⟨c', e', S', q1, q2, q3, q4, q5⟩ := finish_sync H src source (linked op1 R.factory) len acc N' nv'
        (Cor.mk op1 op2 kernel a b R L R.numMoments R.numVectors (updatePsi op2 R) L.moments [] (fun _ _ => 0) 0) gR gL' gR.num gR.numVectors rfl rfl
      rw [e'] at hi
      simp only at hi
      injection hi with hi
      subst hi
      exact ⟨N', nv', hnv, S', q1, q2, q3, q4, q5⟩

/-- Correlators a user can get: the constructor succeeded, with `0 < eps < 2` and an iterable that provides the vectors `src`; any calls of
`add_moments` and `add_vectors` followed, successful or not; without `accumulate_vectors` only calls of `add_vectors` (see `C124_counterexample`). -/
def CorReach (H : Matrix (Fin d) (Fin d) ℂ) (op1 op2 : Vec d → Vec d) (kernel : Kernel ℝ) (src : ℕ → Vec d) (len : Option ℕ) (acc : Bool) (a b : ℝ) (c : Cor d) : Prop :=
  ∃ eps lmin lmax nm er source nvec c0 cs, Avail len source src ∧ eps < 2 ∧ rescale eps lmin lmax = .ok (a, b) ∧
    Cor.init (fun v => H.mulVec v) op1 op2 kernel eps lmin lmax nm er source len nvec acc = .ok c0 ∧ c = c0.steps cs ∧
    (acc = false → ∀ x ∈ cs, ∃ n, x = .addVectors n)

theorem steps_sync {H : Matrix (Fin d) (Fin d) ℂ} {src : ℕ → Vec d} {source : ℕ → Option (Vec d)} {len : Option ℕ} {acc : Bool} {a b : ℝ}
    {op1 op2 : Vec d → Vec d} {kernel : Kernel ℝ} (hav : Avail len source src)
    (cs : List Call) (hcs : acc = false → ∀ x ∈ cs, ∃ n, x = .addVectors n) {N nv : ℕ} {c : Cor d} (S : Sync H src source len acc N nv c) (hnv : 0 < nv)
    (q : c.a = a ∧ c.b = b ∧ c.op1 = op1 ∧ c.op2 = op2 ∧ c.kernel = kernel) :
    ∃ N' nv', 0 < nv' ∧ Sync H src source len acc N' nv' (c.steps cs) ∧ (c.steps cs).a = a ∧ (c.steps cs).b = b ∧ (c.steps cs).op1 = op1 ∧
      (c.steps cs).op2 = op2 ∧ (c.steps cs).kernel = kernel := by
  induction cs generalizing c N nv with
  | nil => exact ⟨N, nv, hnv, S, q⟩
  | cons x cs ih =>
    have hcs' : acc = false → ∀ y ∈ cs, ∃ n, y = .addVectors n := fun h y hy => hcs h y (List.mem_cons_of_mem _ hy)
    have hstep : c.steps (x :: cs) = (c.step x).1.steps cs := rfl
    rw [hstep]
    cases x with
    | addVectors n =>
      rcases addVectors_sync S hav n with ⟨⟨e, he⟩, _⟩ | ⟨k, c', _, _, he, S', q'⟩
      · rw [show c.step (.addVectors n) = (c, some e) from he]
        exact ih hcs' S hnv q
      · rw [show c.step (.addVectors n) = (c', none) from he]
        obtain ⟨q1, q2, q3, q4, q5⟩ := q
        obtain ⟨p1, p2, p3, p4, p5⟩ := q'
        exact ih hcs' S' (by omega) ⟨p1.trans q1, p2.trans q2, p3.trans q3, p4.trans q4, p5.trans q5⟩
    | addMoments n er =>
      cases acc with
      | false =>
        obtain ⟨k, hk⟩ := hcs rfl _ (List.mem_cons_self)
        cases hk
      | true =>
        rcases addMoments_sync S n er with ⟨⟨e, he⟩, _⟩ | ⟨k, c', _, _, he, S', q'⟩
        · rw [show c.step (.addMoments n er) = (c, some e) from he]
          exact ih hcs' S hnv q
        · rw [show c.step (.addMoments n er) = (c', none) from he]
          obtain ⟨q1, q2, q3, q4, q5⟩ := q
          obtain ⟨p1, p2, p3, p4, p5⟩ := q'
          exact ih hcs' S' hnv ⟨p1.trans q1, p2.trans q2, p3.trans q3, p4.trans q4, p5.trans q5⟩

theorem reach_sync {H : Matrix (Fin d) (Fin d) ℂ} {op1 op2 : Vec d → Vec d} {kernel : Kernel ℝ} {src : ℕ → Vec d} {len : Option ℕ} {acc : Bool} {a b : ℝ} {c : Cor d}
    (h : CorReach H op1 op2 kernel src len acc a b c) :
    ∃ source N nv, Avail len source src ∧ 0 < nv ∧ Sync H src source len acc N nv c ∧ c.a = a ∧ c.b = b ∧ c.op1 = op1 ∧ c.op2 = op2 ∧ c.kernel = kernel := by
  obtain ⟨eps, lmin, lmax, nm, er, source, nvec, c0, cs, hav, h2, hr, hi, rfl, hcs⟩ := h
  obtain ⟨N, nv, hnv, S, q⟩ := init_sync H op1 op2 kernel eps lmin lmax a b h2 hr nm er source src len hav nvec acc c0 hi
  obtain ⟨N', nv', hnv', S', q'⟩ := steps_sync hav cs hcs S hnv q
  exact ⟨source, N', nv', hav, hnv', S', q'⟩

/-! ### Moments -/

theorem sum_map_range {α : Type} [AddCommMonoid α] (n : ℕ) (f : ℕ → α) : ((List.range n).map f).sum = ∑ r ∈ range n, f r := by
  induction n with
  | zero => rfl
  | succ n ih => rw [List.range_succ, List.map_append, List.sum_append, ih, Finset.sum_range_succ]; simp

theorem getD_map_range {α : Type} (n i : ℕ) (hi : i < n) (f : ℕ → α) (x : α) : ((List.range n).map f).getD i x = f i := by
  rw [List.getD_eq_getElem?_getD, List.getElem?_map, List.getElem?_range hi]; rfl

theorem matrix_eq {H : Matrix (Fin d) (Fin d) ℂ} {src : ℕ → Vec d} {source : ℕ → Option (Vec d)} {len : Option ℕ} {acc : Bool} {N nv : ℕ} {c : Cor d}
    (S : Sync H src source len acc N nv c) (m n : ℕ) (hm : m < N) (hn : n < N) :
    c.matrix none m n = (nv : ℂ)⁻¹ * ∑ r ∈ range nv, vdot ((chebT H c.a c.b m).mulVec (c.op1 (src r))) (c.op2 ((chebT H c.a c.b n).mulVec (src r))) ∧
    ∀ r < nv, c.matrix (some r) m n = vdot ((chebT H c.a c.b m).mulVec (c.op1 (src r))) (c.op2 ((chebT H c.a c.b n).mulVec (src r))) := by
  unfold Cor.matrix matrixOf
  rw [S.mat]
  constructor
  · simp only [List.length_map, List.length_range, List.map_map]
    rw [sum_map_range]
    congr 1
    refine sum_congr rfl fun r _ => ?_
    simp only [Function.comp_apply]
    rw [getD_map_range _ _ hm, getD_map_range _ _ hn]
  · intro r hr
    simp only
    rw [getD_map_range _ _ hr, getD_map_range _ _ hm, getD_map_range _ _ hn]

/-- C124 (moments).  Entry `(m, n)` of `moments_matrix` is the mean over the vectors (with `mean=False` the value for each vector) of
`⟨T_m(h) O₁ v | O₂ T_n(h) v⟩`, `h = (H - b) / a`, for all the moments and vectors that the object reports, after any history of calls. -/
theorem C124_moments (H : Matrix (Fin d) (Fin d) ℂ) (op1 op2 : Vec d → Vec d) (kernel : Kernel ℝ) (src : ℕ → Vec d) (len : Option ℕ) (acc : Bool) (a b : ℝ) (c : Cor d)
    (h : CorReach H op1 op2 kernel src len acc a b c) (m n : ℕ) (hm : m < c.numMoments) (hn : n < c.numMoments) :
    0 < c.numVectors ∧
    c.matrix none m n = (c.numVectors : ℂ)⁻¹ * ∑ r ∈ range c.numVectors, vdot ((chebT H a b m).mulVec (op1 (src r))) (op2 ((chebT H a b n).mulVec (src r))) ∧
    ∀ r < c.numVectors, c.matrix (some r) m n = vdot ((chebT H a b m).mulVec (op1 (src r))) (op2 ((chebT H a b n).mulVec (src r))) := by
  obtain ⟨source, N, nv, hav, hnv, S, rfl, rfl, rfl, rfl, rfl⟩ := reach_sync h
  rw [S.num] at hm hn
  rw [S.vec]
  exact ⟨hnv, matrix_eq S m n hm hn⟩

/-- C124 (trace).  With matrices as operators and the unit vectors of all orbitals the entry is `Tr[O₁† T_m(h) O₂ T_n(h)]` divided by the number of orbitals. -/
theorem C124_trace (H : Matrix (Fin d) (Fin d) ℂ) (hH : H.IsHermitian) (A B : Matrix (Fin d) (Fin d) ℂ) (kernel : Kernel ℝ) (src : ℕ → Vec d)
    (hsrc : ∀ i : Fin d, src i = Pi.single i 1) (len : Option ℕ) (acc : Bool) (a b : ℝ) (c : Cor d)
    (h : CorReach H (fun v => A.mulVec v) (fun v => B.mulVec v) kernel src len acc a b c) (hd : c.numVectors = d) (m n : ℕ) (hm : m < c.numMoments) (hn : n < c.numMoments) :
    c.matrix none m n = (d : ℂ)⁻¹ * (A.conjTranspose * chebT H a b m * B * chebT H a b n).trace := by
  rw [(C124_moments H _ _ kernel src len acc a b c h m n hm hn).2.1, hd, Finset.sum_range]
  congr 1
  refine sum_congr rfl fun i _ => ?_
  rw [hsrc i, mulVec_mulVec, mulVec_mulVec, vdot_eq, star_mulVec, ← dotProduct_mulVec, mulVec_mulVec, ← vdot_eq, conjTranspose_mul,
    (chebT_herm H a b hH m).eq, vdot_single, Matrix.diag_apply]
  simp only [mul_assoc]

/-- C124 (calls).  `add_vectors` is refused with the object unchanged, exactly if the argument is not a positive integer or there are not that many more vectors, or it adds
that many vectors.  With `accumulate_vectors` the same holds for `add_moments`, which is not refused for a positive integer. -/
theorem C124_calls (H : Matrix (Fin d) (Fin d) ℂ) (op1 op2 : Vec d → Vec d) (kernel : Kernel ℝ) (src : ℕ → Vec d) (len : Option ℕ) (acc : Bool) (a b : ℝ) (c : Cor d)
    (h : CorReach H op1 op2 kernel src len acc a b c) :
    (∀ n, ((∃ e, c.addVectors n = (c, some e)) ∧ ¬ ∃ k : ℕ, n = some (k : ℤ) ∧ 0 < k ∧ ∀ m, len = some m → c.numVectors + k ≤ m) ∨
      ∃ (k : ℕ) (c' : Cor d), n = some (k : ℤ) ∧ 0 < k ∧ c.addVectors n = (c', none) ∧ c'.numVectors = c.numVectors + k ∧ c'.numMoments = c.numMoments) ∧
    (acc = true → ∀ n er, ((∃ e, c.addMoments n er = (c, some e)) ∧ ¬ (er = none ∧ ∃ k : ℕ, n = some (k : ℤ) ∧ 0 < k)) ∨
      ∃ (k : ℕ) (c' : Cor d), 0 < k ∧ (n = some (k : ℤ) ∧ er = none ∨ n = none ∧ er.isSome = true) ∧ c.addMoments n er = (c', none) ∧
        c'.numMoments = c.numMoments + k ∧ c'.numVectors = c.numVectors) := by
  obtain ⟨source, N, nv, hav, hnv, S, -⟩ := reach_sync h
  refine ⟨fun n => ?_, ?_⟩
  · rcases addVectors_sync S hav n with ⟨he, hne⟩ | ⟨k, c', hn, hk, he, S', -⟩
    · exact Or.inl ⟨he, by rw [S.vec]; exact hne⟩
    · exact Or.inr ⟨k, c', hn, hk, he, by rw [S'.vec, S.vec], by rw [S'.num, S.num]⟩
  · rintro rfl n er
    rcases addMoments_sync S n er with ⟨he, hne⟩ | ⟨k, c', hk, hn, he, S', -⟩
    · exact Or.inl ⟨he, hne⟩
    · exact Or.inr ⟨k, c', hk, hn, he, by rw [S'.num, S.num], by rw [S'.vec, S.vec]⟩

end Kwant.Kpm
