import Verif.Kpm.CorrInt

/-! Construction of correlators; what `add_moments` does without `accumulate_vectors` (C124, continued). -/

set_option linter.unusedSectionVars false

namespace Kwant.Kpm
open Polynomial Finset
open Matrix hiding map_apply

variable {d : ℕ}

/-- C124 (construction).  With `0 < eps < 2`, bounds that are accepted, at least two moments and a positive number of vectors, not more than there
are, the constructor succeeds with these numbers of moments and vectors. -/
theorem C124_init (H : Matrix (Fin d) (Fin d) ℂ) (op1 op2 : Vec d → Vec d) (kernel : Kernel ℝ) (eps lmin lmax a b : ℝ) (h0 : 0 < eps) (h2 : eps < 2)
    (hr : rescale eps lmin lmax = .ok (a, b)) (N k : ℕ) (hN : 2 ≤ N) (hk0 : 0 < k)
    (source : ℕ → Option (Vec d)) (src : ℕ → Vec d) (len : Option ℕ) (acc : Bool) (hav : Avail len source src) (hlen : ∀ m, len = some m → k ≤ m) :
    ∃ c, Cor.init (fun v => H.mulVec v) op1 op2 kernel eps lmin lmax (some N) none source len (some k) acc = .ok c ∧ c.numMoments = N ∧ c.numVectors = k ∧
      CorReach H op1 op2 kernel src len acc a b c := by
  obtain ⟨R, hR, r1, r2⟩ := init_ok H fakeOp (fun _ _ v => fakeOk _ v) eps lmin lmax a b h0 hr N k hN hk0 source src len true
    (fun i hi => hav i fun m hm => lt_of_lt_of_le hi (hlen m hm)) hlen
  obtain ⟨a', b', N', nv, hr', _, _, hnv, gR⟩ := init_good _ fakeOp eps lmin lmax (some N) none source len (some k) true src R
      (fun k _ hm i hi => hav i fun m h => lt_of_lt_of_le hi (hm m h)) (fun _ _ v _ => fakeOk _ v) hR
  rw [hr] at hr'
  injection hr' with hr'
  obtain ⟨rfl, rfl⟩ := Prod.mk.inj hr'
  have ek : nv = k := by rw [← r2, gR.numVectors]
  have eN : N' = N := by rw [← r1, gR.num]
  subst ek eN
  obtain ⟨L, hL, l1, l2⟩ := init_ok H fakeOp (fun _ _ v => fakeOk _ v) eps _ _ a b h0 (C120_again eps lmin lmax a b h0 h2 hr) N' nv hN hk0
    (linked op1 R.factory) (fun i => op1 (src i)) none acc (fun i hi => linked_eq gR.fac rfl op1 i hi) (fun m hm => by cases hm)
  obtain ⟨a'', b'', N'', nv'', hr'', _, _, _, gL'⟩ := init_good _ fakeOp _ _ _ _ _ (linked op1 R.factory) none _ acc (fun i => op1 (src i)) L
    (fun k hk _ i hi => linked_eq gR.fac rfl op1 i (by simp only [Option.getD_some] at hk; omega)) (fun _ _ v _ => fakeOk _ v) hL
  rw [C120_again eps lmin lmax a b h0 h2 hr] at hr''
  injection hr'' with hr''
  obtain ⟨rfl, rfl⟩ := Prod.mk.inj hr''
  have en : nv'' = nv := by rw [← l2, gL'.numVectors]
  have eN : N'' = N' := by rw [← l1, gL'.num]
  subst en eN
  obtain ⟨c, e', S', -⟩ := finish_sync H src source (linked op1 R.factory) len acc N'' nv''
    (Cor.mk op1 op2 kernel a b R L R.numMoments R.numVectors (updatePsi op2 R) L.moments [] (fun _ _ => 0) 0) gR gL' gR.num gR.numVectors rfl rfl
  have hc : Cor.init (fun v => H.mulVec v) op1 op2 kernel eps lmin lmax (some (N'' : ℤ)) none source len (some (nv'' : ℤ)) acc = .ok c := by
    unfold Cor.init
    rw [hR]
    simp only
    have ea : R.a = a := gR.inv.a
    have eb : R.b = b := gR.inv.b
    rw [ea, eb]
    rw [r1, r2] at e' ⊢
    rw [hL]
    simp only
    rw [e']
  exact ⟨c, hc, S'.num, S'.vec, eps, lmin, lmax, some N'', none, source, some nv'', c, [], hav, h2, hr, hc, rfl, fun _ x hx => by cases hx⟩

/-! ### Without accumulated vectors -/

/-- The second spectral density has fewer moments than the first. -/
structure Broken (H : Matrix (Fin d) (Fin d) ℂ) (src : ℕ → Vec d) (source : ℕ → Option (Vec d)) (len : Option ℕ) (N N' nv : ℕ) (c : Cor d) : Prop where
  r : Good ⟨fun v => H.mulVec v, fakeOp, c.a, c.b, true, len, src, source⟩ N' nv c.R
  l : ∃ s, Good ⟨fun v => H.mulVec v, fakeOp, c.a, c.b, false, none, fun i => c.op1 (src i), s⟩ N nv c.L
  lt : N < N'
  pos : 0 < nv
  num : c.numMoments = N'
  nE : c.nE = 2 * N

theorem finish_broken {H : Matrix (Fin d) (Fin d) ℂ} {src : ℕ → Vec d} {source : ℕ → Option (Vec d)} {len : Option ℕ} {N N' nv : ℕ} {c : Cor d}
    (S : Broken H src source len N N' nv c) (psi : c.psi = updatePsi c.op2 c.R) (omega : c.omega = c.L.moments) :
    ∃ c', c.finish = (c', some .value) ∧ Broken H src source len N N' nv c' := by
  obtain ⟨s, l⟩ := S.l
  have hpsi : c.psi.length = nv := by rw [psi]; unfold updatePsi; rw [List.length_map, List.length_range, S.r.numVectors]
  have homega : c.omega = (List.range nv).map fun r => (List.range N).map fun m => (chebT H c.a c.b m).mulVec (c.op1 (src r)) := by
    rw [omega, good_moments l]
  unfold Cor.finish
  have h1 : shapesOk c.omega c.psi = true := by
    unfold shapesOk; rw [homega, hpsi]; simp
  rw [if_pos h1]
  simp only
  have h2 : squares c.numMoments (List.zipWith (fun o p => o.map fun x => p.map fun y => vdot x y) c.omega c.psi) = false := by
    unfold squares
    rw [homega, S.num]
    obtain ⟨nv', rfl⟩ : ∃ k, nv = k + 1 := ⟨nv - 1, by have := S.pos; omega⟩
    obtain ⟨p, ps, hp⟩ : ∃ p ps, c.psi = p :: ps := by
      cases h : c.psi with
      | nil => rw [h] at hpsi; cases hpsi
      | cons p ps => exact ⟨p, ps, rfl⟩
    rw [hp, List.range_succ_eq_map, List.map_cons, List.zipWith_cons_cons, List.all_cons]
    have : N ≠ N' := by have := S.lt; omega
    simp [this]
  rw [h2]
  exact ⟨_, rfl, S.r, ⟨s, l⟩, S.lt, S.pos, S.num, S.nE⟩

theorem step_broken {H : Matrix (Fin d) (Fin d) ℂ} {src : ℕ → Vec d} {source : ℕ → Option (Vec d)} {len : Option ℕ} {N N' nv : ℕ} {c : Cor d}
    (S : Broken H src source len N N' nv c) (hav : Avail len source src) (x : Call) :
    ∃ N'' nv' e, (c.step x).2 = some e ∧ Broken H src source len N N'' nv' (c.step x).1 := by
  obtain ⟨sL, gL⟩ := S.l
  cases x with
  | addVectors n =>
    show ∃ N'' nv' e, (c.addVectors n).2 = some e ∧ Broken H src source len N N'' nv' (c.addVectors n).1
    unfold Cor.addVectors
    rcases addVectors_good (fun v => fakeOk _ v) S.r n (Avail.enough hav _ _) with ⟨e, he, hne⟩ | ⟨k, R, hn, hk, he, gR⟩
    · rw [he]; exact ⟨N', nv, e, rfl, S⟩
    · rw [he]
      simp only
      have hl : ∀ i < nv + k, linked c.op1 R.factory i = some (c.op1 (src i)) := fun i hi => linked_eq gR.fac rfl c.op1 i hi
      have G1 := relink_good gL (linked c.op1 R.factory) fun i hi => hl i (by omega)
      rcases addVectors_good (fun v => fakeOk _ v) G1 n (by
        intro k' hk' _ i hi
        have : k' = k := by rw [hn] at hk'; injection hk' with h; omega
        subst this
        exact hl i hi) with ⟨e, he', hne⟩ | ⟨k', L, hn', _, he', gL'⟩
      · exact absurd ⟨k, hn, hk, fun m hm => by cases hm⟩ hne
      · have : k' = k := by rw [hn] at hn'; injection hn' with h; omega
        subst this
        rw [he']
        simp only
        obtain ⟨c', e', S'⟩ := finish_broken (c := { c with R := R, psi := updatePsi c.op2 R, L := L, numVectors := L.numVectors, omega := L.moments })
          ⟨gR, ⟨_, gL'⟩, S.lt, by omega, S.num, S.nE⟩ rfl rfl
        rw [e']
        exact ⟨N', nv + k', _, rfl, S'⟩
  | addMoments n er =>
    show ∃ N'' nv' e, (c.addMoments n er).2 = some e ∧ Broken H src source len N N'' nv' (c.addMoments n er).1
    unfold Cor.addMoments
    rcases addMoments_good (fun v => fakeOk _ v) S.r n er with ⟨e, he, hne⟩ | ⟨k, R, hk, hn, he, gR, _⟩
    · rw [he]; exact ⟨N', nv, e, rfl, S⟩
    · rw [he]
      simp only
      have hl : ∀ i < nv, linked c.op1 R.factory i = some (c.op1 (src i)) := fun i hi => linked_eq gR.fac rfl c.op1 i hi
      have G1 := relink_good gL (linked c.op1 R.factory) hl
      rcases addMoments_good (fun v => fakeOk _ v) G1 n er with ⟨e, he', _⟩ | ⟨_, _, _, _, _, _, h⟩
      · rw [he']
        exact ⟨N' + k, nv, e, rfl, gR, ⟨_, G1⟩, by have := S.lt; omega, S.pos, gR.num, S.nE⟩
      · cases h

theorem steps_broken {H : Matrix (Fin d) (Fin d) ℂ} {src : ℕ → Vec d} {source : ℕ → Option (Vec d)} {len : Option ℕ} {N N' nv : ℕ} {c : Cor d}
    (S : Broken H src source len N N' nv c) (hav : Avail len source src) (cs : List Call) : ∃ N'' nv', Broken H src source len N N'' nv' (c.steps cs) := by
  induction cs generalizing c N' nv with
  | nil => exact ⟨N', nv, S⟩
  | cons x cs ih =>
    obtain ⟨N'', nv', _, _, S'⟩ := step_broken S hav x
    exact ih S'

/-- C124 (counterexample).  Refused calls do not always leave the object as it was.  Without `accumulate_vectors`, the default, `add_moments` with a positive number
raises an exception after the first of the two spectral densities and `num_moments` have changed, and the object is useless from then on: whatever is
called afterwards, `__call__`, `add_moments` and `add_vectors` raise. -/
theorem C124_counterexample (H : Matrix (Fin d) (Fin d) ℂ) (op1 op2 : Vec d → Vec d) (kernel : Kernel ℝ) (src : ℕ → Vec d) (len : Option ℕ) (a b : ℝ) (c : Cor d)
    (h : CorReach H op1 op2 kernel src len false a b c) (k : ℕ) (hk : 0 < k) :
    ∃ c' e, c.addMoments (some k) none = (c', some e) ∧ c'.numMoments = c.numMoments + k ∧
      ∀ cs, (∀ simpson r mu T, (c'.steps cs).call simpson r mu T = .error .value) ∧ ∀ x, ∃ e, ((c'.steps cs).step x).2 = some e := by
  obtain ⟨source, N, nv, hav, hnv, S, -⟩ := reach_sync h
  have key : ∃ c' e, c.addMoments (some k) none = (c', some e) ∧ Broken H src source len N (N + k) nv c' := by
    unfold Cor.addMoments
    rcases addMoments_good (fun v => fakeOk _ v) S.r (some k) none with ⟨e, he, hne⟩ | ⟨k', R, hk', hn, he, gR, _⟩
    · exact absurd ⟨rfl, rfl, k, rfl, hk⟩ hne
    · obtain rfl : k' = k := by
        rcases hn with ⟨h, _⟩ | ⟨h, _⟩
        · injection h with h; omega
        · cases h
      rw [he]
      simp only
      obtain ⟨sL, gL⟩ := S.l
      have hl : ∀ i < nv, linked c.op1 R.factory i = some (c.op1 (src i)) := fun i hi => linked_eq gR.fac rfl c.op1 i hi
      have G1 := relink_good gL (linked c.op1 R.factory) hl
      rcases addMoments_good (fun v => fakeOk _ v) G1 (some (k' : ℤ)) none with ⟨e, he', _⟩ | ⟨_, _, _, _, _, _, h⟩
      · rw [he']
        exact ⟨_, e, rfl, gR, ⟨_, G1⟩, by omega, hnv, gR.num, S.nE⟩
      · cases h
  obtain ⟨c', e, he, B⟩ := key
  refine ⟨c', e, he, by rw [B.num, S.num], fun cs => ?_⟩
  obtain ⟨N'', nv', B'⟩ := steps_broken B hav cs
  constructor
  · intro simpson r mu T
    unfold Cor.call
    by_cases hT : T < 0
    · rw [if_pos hT]
    · rw [if_neg hT, if_pos (by rw [B'.nE, B'.r.num]; have := B'.lt; omega)]
  · intro x
    obtain ⟨_, _, e, he, _⟩ := step_broken B' hav x
    exact ⟨e, he⟩

/-- The hypotheses can be met: three moments of the two unit vectors; `O₁ = H`, `O₂ = 1`. -/
theorem C124_example (acc : Bool) : ∃ c : Cor 2, CorReach exH (fun v => exH.mulVec v) (fun v => (1 : Matrix (Fin 2) (Fin 2) ℂ).mulVec v) jackson
      (fun r => if r = 0 then ![1, 0] else ![0, 1]) (some 2) acc 2 0 c ∧ c.numMoments = 3 ∧ c.numVectors = 2 ∧ c.matrix none 1 0 = 1 / 2 := by
  obtain ⟨c, _, h1, h2, h3⟩ := C124_init exH (fun v => exH.mulVec v) (fun v => (1 : Matrix (Fin 2) (Fin 2) ℂ).mulVec v) jackson 1 (-1) 1 2 0 one_pos (by norm_num) exRescale 3 2
    (by norm_num) (by norm_num) (fun r => some (if r = 0 then ![1, 0] else ![0, 1])) (fun r => if r = 0 then ![1, 0] else ![0, 1]) (some 2) acc (fun i _ => rfl)
    (fun m hm => by injection hm with h; omega)
  refine ⟨c, h3, h1, h2, ?_⟩
  rw [C124_trace exH exH_herm exH 1 jackson _ (fun i => by fin_cases i <;> ext j <;> fin_cases j <;> simp) (some 2) acc 2 0 c h3 h2 1 0 (by omega) (by omega)]
  rw [chebT_one, chebT_zero]
  simp only [scaled, exH]
  simp [Matrix.trace_fin_two, Matrix.mul_apply, Fin.sum_univ_two]
  norm_num

end Kwant.Kpm
