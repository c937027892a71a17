import Verif.Leads.DiagLead

/-!
C156: an example, and two counterexamples to the statement without its hypotheses.
-/

set_option linter.unusedSectionVars false

namespace Kwant.Leads
open Matrix Complex

variable {n N : ℕ}

namespace DiagLead
variable {a : Fin n → ℝ} {t : Fin n → ℂ} {lam : Fin N → ℂ} {orb : Fin N → Fin n}

theorem oneSpeed (d : DiagLead a t lam orb)
    (h : ∀ i j, lam i = lam j → 0 < diagVel t (orb i) (lam i) * diagVel t (orb j) (lam j) → diagVel t (orb i) (lam i) = diagVel t (orb j) (lam j)) :
    OneSpeed (diagH a) (diagonal t) := by
  intro μ v w hμ h1 h2 hvw
  have key : ∀ v, (∃ ψ, ψ ≠ 0 ∧ VelState (diagH a) (diagonal t) μ v ψ) → ∃ i, lam i = μ ∧ diagVel t (orb i) (lam i) = v := by
    rintro v ⟨ψ, h3, h4⟩
    obtain ⟨j, hj⟩ := Function.ne_iff.mp h3
    obtain ⟨h5, h6⟩ := (diag_velState hμ).mp h4
    obtain ⟨i, rfl, h8⟩ := (d.on_iff hμ ψ).mp h5 j hj
    exact ⟨i, h8, by rw [h8]; exact h6 _ hj⟩
  obtain ⟨i, h3, rfl⟩ := key v h1
  obtain ⟨j, h4, rfl⟩ := key w h2
  exact h i j (h3.trans h4.symm) hvw

theorem notMixedPi (d : DiagLead a t lam orb) (h : ∀ i, lam i ≠ -1) : NotMixedPi (diagH a) (diagonal t) := by
  left
  intro ψ hψ
  ext j
  by_contra hj
  obtain ⟨i, _, h2⟩ := (d.on_iff (by simp) ψ).mp hψ j hj
  exact h i h2

end DiagLead

/-- For chains without energies and real hoppings all modes are at the momenta `± π/2`. -/
theorem cosLead (t : Fin 2 → ℝ) (h0 : 0 < t 1) (h1 : t 1 ≤ t 0) (h2 : t 0 < 2 * t 1) :
    DiagLead 0 (fun j => (t j : ℂ)) (![I, I, -I, -I] : Fin 4 → ℂ) ![0, 1, 0, 1] := by
  have hI : (I : ℂ) ≠ -I := by
    intro this
    have := congrArg Complex.im this
    norm_num at this
  have hpos : ∀ j, 0 < t j := by
    intro j
    fin_cases j
    · exact h0.trans_le h1
    · exact h0
  refine ⟨?_, ?_, ?_, ?_, ?_, ?_⟩
  · intro i
    fin_cases i <;> simp
  · intro i
    fin_cases i <;> simp
  · intro i j h3 h4
    fin_cases i <;> fin_cases j <;> simp_all
    all_goals exact hI (by rw [← h3])
  · intro j μ hμ h3
    have hμ0 := unit_ne hμ
    have ht : (t j : ℂ) ≠ 0 := by exact_mod_cast (hpos j).ne'
    simp only [Pi.zero_apply, Complex.ofReal_zero, zero_add, Complex.conj_ofReal, ← add_mul] at h3
    have h4 := (mul_eq_zero.mp h3).resolve_right ht
    have h5 : (μ - I) * (μ + I) = 0 := by
      have : μ * μ + 1 = 0 := by
        have := congrArg (μ * ·) h4
        simpa [mul_add, hμ0] using this
      linear_combination this - I_mul_I
    rcases mul_eq_zero.mp h5 with h6 | h6
    · rw [sub_eq_zero.mp h6]
      fin_cases j
      · exact ⟨0, rfl, rfl⟩
      · exact ⟨1, rfl, rfl⟩
    · rw [eq_neg_of_add_eq_zero_left h6]
      fin_cases j
      · exact ⟨2, rfl, rfl⟩
      · exact ⟨3, rfl, rfl⟩
  · intro i j hij
    fin_cases i <;> fin_cases j <;> simp [abs_of_pos (hpos 0), abs_of_pos (hpos 1)] at hij ⊢
    exact h1
  · intro i j
    have := hpos 0
    have := hpos 1
    fin_cases i <;> fin_cases j <;> simp [abs_of_pos (hpos 0), abs_of_pos (hpos 1)] <;> linarith

/-- For chains without energies and imaginary hoppings all modes are at the momenta `0` and `π`. -/
theorem sinLead : DiagLead 0 (![I, -I]) (![1, 1, -1, -1] : Fin 4 → ℂ) ![0, 1, 0, 1] := by
  have hI : (1 : ℂ) ≠ -1 := by norm_num
  refine ⟨?_, ?_, ?_, ?_, ?_, ?_⟩
  · intro i
    fin_cases i <;> simp
  · intro i
    fin_cases i <;> simp
  · intro i j h3 h4
    fin_cases i <;> fin_cases j <;> simp_all
    all_goals exact hI (by rw [← h3])
  · intro j μ hμ h3
    have hμ0 := unit_ne hμ
    have h4 : μ - μ⁻¹ = 0 := by
      fin_cases j
      · simp at h3
        have : (μ - μ⁻¹) * I = 0 := by linear_combination h3
        exact (mul_eq_zero.mp this).resolve_right I_ne_zero
      · simp at h3
        have : (μ - μ⁻¹) * I = 0 := by linear_combination -h3
        exact (mul_eq_zero.mp this).resolve_right I_ne_zero
    have h5 : (μ - 1) * (μ + 1) = 0 := by
      have : μ * μ - 1 = 0 := by
        have := congrArg (μ * ·) h4
        simpa [mul_sub, hμ0] using this
      linear_combination this
    rcases mul_eq_zero.mp h5 with h6 | h6
    · rw [sub_eq_zero.mp h6]
      fin_cases j
      · exact ⟨0, rfl, rfl⟩
      · exact ⟨1, rfl, rfl⟩
    · rw [eq_neg_of_add_eq_zero_left h6]
      fin_cases j
      · exact ⟨2, rfl, rfl⟩
      · exact ⟨3, rfl, rfl⟩
  · intro i j hij
    fin_cases i <;> fin_cases j <;> simp
  · intro i j
    fin_cases i <;> fin_cases j <;> simp

/-- The spin of a particle is reversed. -/
noncomputable def exTr : Matrix (Fin 2) (Fin 2) ℂ := !![0, 1; -1, 0]

theorem cos_vel (t : Fin 2 → ℝ) (j : Fin 2) : diagVel (fun j => (t j : ℂ)) j I = 2 * t j ∧ diagVel (fun j => (t j : ℂ)) j (-I) = -(2 * t j) := by
  constructor <;> simp [diagVel]

theorem cos_sep (e : ModeNum 2) (he : e.eps ≤ 1 / 10) : Separated e (![I, I, -I, -I] : Fin 4 → ℂ) := by
  have h2 : ‖(2 : ℂ) * I‖ = 2 := by simp
  have h3 : ‖I - -I‖ = 2 := by rw [← h2]; congr 1; ring
  have h4 : ‖-I - I‖ = 2 := by rw [← norm_neg, ← h2]; congr 1; ring
  intro i j
  fin_cases i <;> fin_cases j <;> first | (intro _; rfl) | (intro h0; exfalso; simp only [] at h0)
  all_goals first | (change ‖I - -I‖ ≤ _ at h0; rw [h3] at h0; linarith) | (change ‖-I - I‖ ≤ _ at h0; rw [h4] at h0; linarith)

theorem sin_sep (e : ModeNum 2) (he : e.eps ≤ 1 / 10) : Separated e (![1, 1, -1, -1] : Fin 4 → ℂ) := by
  have h3 : ‖(1 : ℂ) - -1‖ = 2 := by rw [sub_neg_eq_add, one_add_one_eq_two]; simp
  have h4 : ‖(-1 : ℂ) - 1‖ = 2 := by rw [← norm_neg, neg_sub, sub_neg_eq_add, one_add_one_eq_two]; simp
  intro i j
  fin_cases i <;> fin_cases j <;> first | (intro _; rfl) | (intro h0; exfalso; simp only [] at h0)
  all_goals first | (change ‖(1 : ℂ) - -1‖ ≤ _ at h0; rw [h3] at h0; linarith) | (change ‖(-1 : ℂ) - 1‖ ≤ _ at h0; rw [h4] at h0; linarith)

theorem exTr_left : exTrᴴ * exTr = 1 := by
  ext i j
  fin_cases i <;> fin_cases j <;> simp [exTr, Matrix.mul_apply, Fin.sum_univ_two, conjTranspose_apply]

theorem exTr_right : exTr * exTrᴴ = 1 := by
  ext i j
  fin_cases i <;> fin_cases j <;> simp [exTr, Matrix.mul_apply, Fin.sum_univ_two, conjTranspose_apply]

/-- Without energies, the on-site Hamiltonian is no problem. -/
theorem diagH_zero : diagH (0 : Fin n → ℝ) = 0 := by
  rw [diagH]
  ext i j
  by_cases h : i = j
  · subst h; simp
  · simp [h]

theorem cosCard (t : Fin 2 → ℝ) (hpos : ∀ j, 0 < t j) : 2 * (Finset.univ.filter fun i : Fin 4 =>
    diagVel (fun j => (t j : ℂ)) ((![0, 1, 0, 1] : Fin 4 → Fin 2) i) ((![I, I, -I, -I] : Fin 4 → ℂ) i) < 0).card = 4 := by
  have : (Finset.univ.filter fun i : Fin 4 => diagVel (fun j => (t j : ℂ)) ((![0, 1, 0, 1] : Fin 4 → Fin 2) i) ((![I, I, -I, -I] : Fin 4 → ℂ) i) < 0) = {2, 3} := by
    ext i
    have := hpos 0
    have := hpos 1
    fin_cases i <;> simp [cos_vel, diagVel] <;> linarith
  rw [this]
  rfl

/-- The linear system that is set up for uncoupled chains -/
noncomputable def diagL (a : Fin n → ℝ) (t : Fin n → ℂ) : Linsys n := linsysReg (exNum (diagSvd t)) (diagH a) (diagonal t)

theorem I_ne_neg : (I : ℂ) ≠ -I := by
  intro this
  have := congrArg Complex.im this
  norm_num at this

/-- If time-reversal symmetry holds, modes are returned. -/
theorem DiagLead.ok_tr {a : Fin n → ℝ} {t : Fin n → ℂ} {lam : Fin N → ℂ} {orb : Fin N → Fin n} (d : DiagLead a t lam orb) (hn : 0 < n) {psi}
    (hp : PropInput (diagL a t) lam psi) (e : ModeNum n) (he : e.Ok) (hs : Separated e lam)
    (hv : ∀ i, e.velEps ≤ |diagVel t (orb i) (lam i)|) (hc : 2 * (Finset.univ.filter fun i => diagVel t (orb i) (lam i) < 0).card = N) (tr : Matrix (Fin n) (Fin n) ℂ)
    (junk : Fin N → ℝ) : ∃ o, makeProperModes e ⟨some tr, none, none⟩ junk lam psi (diagL a t).extract = .ok o := by
  obtain ⟨o', ho'⟩ := d.ok hn hp e he hs hv hc junk
  match hm : makeProperModes e ⟨some tr, none, none⟩ junk lam psi (diagL a t).extract with
  | .ok o => exact ⟨o, rfl⟩
  | .error x =>
    rw [C156_error] at hm
    have h0 := hm.symm.trans ho'
    cases h0

/-- The hoppings of two equal chains -/
noncomputable def exOnes : Fin 2 → ℂ := fun _ => ((1 : ℝ) : ℂ)

/-- C156: two chains for electrons with spin, with time-reversal symmetry, `T^2 = -1`. -/
theorem C156_example (e : ModeNum 2) (he : e.Ok) (h1 : e.eps ≤ 1 / 10) (h2 : e.velEps ≤ 1 / 10) :
    setupLinsys (exNum (diagSvd exOnes)) (diagH 0) (diagonal exOnes) none = .ok (diagL 0 exOnes) ∧
    ∃ psi, PropInput (diagL 0 exOnes) ![I, I, -I, -I] psi ∧ ∀ junk, ∃ o,
      makeProperModes e ⟨some exTr, none, none⟩ junk ![I, I, -I, -I] psi (diagL 0 exOnes).extract = .ok o ∧
      ProperSpec (diagH 0) (diagonal exOnes) (diagL 0 exOnes) o ∧ TimeReversed exTr o := by
  have d : DiagLead 0 exOnes _ _ := cosLead (fun _ => 1) (by norm_num) le_rfl (by norm_num)
  have hS := d.setup (by norm_num)
  obtain ⟨psi, hpsi⟩ := d.input (by norm_num)
  refine ⟨hS, psi, hpsi, fun junk => ?_⟩
  obtain ⟨o, ho⟩ := d.ok_tr (by norm_num) hpsi e he (cos_sep e h1) (by
    intro i
    fin_cases i <;> simp [diagVel, exOnes] <;> linarith) (cosCard _ fun _ => by norm_num) exTr junk
  refine ⟨o, ho, C156_modes_partial (diagH_hermitian _) _ (exNum_ok d.svd_ok) hS d.cut (by simp) e he hpsi (cos_sep e h1) ⟨exTr_left, exTr_right, ?_, ?_⟩ none ?_ ?_ junk ho⟩
  · rw [diagH_zero]
    simp
  · have : diagonal exOnes = 1 := by ext i j; simp [exOnes, diagonal_apply, Matrix.one_apply]
    rw [this]
    simp
  · refine d.oneSpeed ?_
    intro i j h5 h6
    fin_cases i <;> fin_cases j <;> simp [diagVel, exOnes] at h5 h6 ⊢
    all_goals first | exact absurd h5 I_ne_neg | exact absurd h5.symm I_ne_neg
  · refine d.notMixedPi ?_
    intro i h5
    have := congrArg Complex.im h5
    fin_cases i <;> simp at this

/-! ### Counterexamples -/

theorem sin_vel : diagVel ![I, -I] 0 1 = 2 ∧ diagVel ![I, -I] 1 1 = -2 ∧ diagVel ![I, -I] 0 (-1) = -2 ∧ diagVel ![I, -I] 1 (-1) = 2 := by
  refine ⟨?_, ?_, ?_, ?_⟩ <;> simp [diagVel]

theorem cos32_vel : diagVel ![3, 2] 0 I = 6 ∧ diagVel ![3, 2] 1 I = 4 ∧ diagVel ![3, 2] 0 (-I) = -6 ∧ diagVel ![3, 2] 1 (-I) = -4 := by
  refine ⟨?_, ?_, ?_, ?_⟩ <;> norm_num [diagVel]

theorem arg_one_neg : -(1 : ℂ).arg = 0 ∧ -(-1 : ℂ).arg = -Real.pi := by
  rw [Complex.arg_one, Complex.arg_neg_one]
  simp

/-- C156: for electrons with spin, each direction of which moves in one direction at momentum `0` and in the other one at momentum `π`, the result is wrong: it does not
consist of the proper modes, whatever numerical routines are used. -/
theorem C156_counterexample_pi (e : ModeNum 2) (he : e.Ok) (h1 : e.eps ≤ 1 / 10) (h2 : e.velEps ≤ 1 / 10) :
    Related exTr true false (diagH 0) (diagonal ![I, -I]) (diagH 0) (diagonal ![I, -I]) ∧ OneSpeed (diagH 0) (diagonal ![I, -I]) ∧
    setupLinsys (exNum (diagSvd ![I, -I])) (diagH 0) (diagonal ![I, -I]) none = .ok (diagL 0 ![I, -I]) ∧
    ∃ psi, PropInput (diagL 0 ![I, -I]) (![1, 1, -1, -1] : Fin 4 → ℂ) psi ∧ ∀ junk, ∃ o,
      makeProperModes e ⟨some exTr, none, none⟩ junk ![1, 1, -1, -1] psi (diagL 0 ![I, -I]).extract = .ok o ∧
      ¬ProperSpec (diagH 0) (diagonal ![I, -I]) (diagL 0 ![I, -I]) o := by
  have d := sinLead
  have hS := d.setup (by norm_num)
  obtain ⟨psi, hpsi⟩ := d.input (by norm_num)
  refine ⟨⟨exTr_left, exTr_right, by rw [diagH_zero]; simp, ?_⟩, ?_, hS, psi, hpsi, fun junk => ?_⟩
  · rw [diagonal_map (map_zero _)]
    ext i j
    rw [diagonal_mul, Matrix.smul_apply, mul_diagonal]
    fin_cases i <;> fin_cases j <;> simp [exTr, cj]
  · refine d.oneSpeed ?_
    intro i j h5 h6
    fin_cases i <;> fin_cases j <;> simp [diagVel] at h5 h6 ⊢ <;> first | (norm_num at h5; done) | (norm_num at h6; done)
  obtain ⟨o, ho⟩ := d.ok_tr (by norm_num) hpsi e he (sin_sep e h1) (by
    intro i
    fin_cases i <;> simp [diagVel] <;> linarith) (by
    have : (Finset.univ.filter fun i : Fin 4 => diagVel ![I, -I] ((![0, 1, 0, 1] : Fin 4 → Fin 2) i) ((![1, 1, -1, -1] : Fin 4 → ℂ) i) < 0) = {1, 2} := by
      ext i
      fin_cases i <;> simp [diagVel]
    rw [this]
    rfl) exTr junk
  refine ⟨o, ho, fun hp => ?_⟩
  obtain ⟨u, hf⟩ := setup_faithful _ (exNum_ok d.svd_ok) hS d.cut (by simp)
  obtain ⟨τ, hτ⟩ := d.proper hf hp
  obtain ⟨k0, v0, ⟨j0, n0⟩, s0⟩ := hτ 0
  obtain ⟨k1, v1, _, _⟩ := hτ 1
  obtain ⟨k2, v2, _, s2⟩ := hτ 2
  obtain ⟨k3, v3, _, _⟩ := hτ 3
  have w0 : o.velocities (τ 0) = 2 := v0.trans sin_vel.1
  have w1 : o.velocities (τ 1) = -2 := v1.trans sin_vel.2.1
  have w2 : o.velocities (τ 2) = -2 := v2.trans sin_vel.2.2.1
  have w3 : o.velocities (τ 3) = 2 := v3.trans sin_vel.2.2.2
  have q0 : o.momenta (τ 0) = 0 := k0.trans arg_one_neg.1
  have q1 : o.momenta (τ 1) = 0 := k1.trans arg_one_neg.1
  have q2 : o.momenta (τ 2) = -Real.pi := k2.trans arg_one_neg.2
  have q3 : o.momenta (τ 3) = -Real.pi := k3.trans arg_one_neg.2
  have hpi := Real.pi_pos
  have p0 : ¬2 * (τ 0).val < 4 := fun h0 => by have := (hp.halves _).mpr h0; linarith
  have p1 : 2 * (τ 1).val < 4 := (hp.halves _).mp (by linarith)
  have p2 : 2 * (τ 2).val < 4 := (hp.halves _).mp (by linarith)
  have p3 : ¬2 * (τ 3).val < 4 := fun h0 => by have := (hp.halves _).mpr h0; linarith
  have o1 : ¬τ 1 < τ 2 := by
    intro h0
    rcases hp.sorted _ _ h0 (by linarith) (by linarith) with h3 | h3 <;> rw [q1, q2] at h3 <;> linarith [h3]
  have o2 : ¬τ 3 < τ 0 := by
    intro h0
    rcases hp.sorted' _ _ h0 (by linarith) (by linarith) with h3 | h3 <;> rw [q0, q3] at h3 <;> linarith [h3]
  have n12 : τ 1 ≠ τ 2 := fun h0 => by have := τ.injective h0; simp at this
  have n03 : τ 3 ≠ τ 0 := fun h0 => by have := τ.injective h0; simp at this
  have t2 : τ 2 = 0 := Fin.ext (show (τ 2).val = 0 by omega)
  have t0 : τ 0 = 2 := Fin.ext (show (τ 0).val = 2 by omega)
  rw [t0] at n0 s0 w0
  rw [t2] at s2 w2
  have hor : _ = _ := C156_order e he exTr none _ psi _ junk ho (0 : Fin 2)
  have hi2 : secondHalf 4 (0 : Fin 2) = 2 := rfl
  have hi0 : firstHalf 4 (0 : Fin 2) = 0 := rfl
  rw [hi2, hi0, w0, w2] at hor
  have hz : o.waveFunctions 1 0 = 0 := by
    by_contra h0
    have : diagVel ![I, -I] 1 (-1) = diagVel ![I, -I] 0 (-1) := (s2 1 h0).2
    rw [sin_vel.2.2.1, sin_vel.2.2.2] at this
    norm_num at this
  have hj0 : j0 = 0 := by
    have := (s0 j0 n0).2
    fin_cases j0
    · rfl
    · have : diagVel ![I, -I] 1 1 = diagVel ![I, -I] 0 1 := this
      rw [sin_vel.1, sin_vel.2.1] at this
      norm_num at this
  subst hj0
  have h6 := congrFun hor 0
  have h7 : ((Real.sqrt |2| : ℝ) : ℂ) ≠ 0 := Complex.ofReal_ne_zero.mpr (Real.sqrt_pos.mpr (by norm_num)).ne'
  simp [exTr, mulVec, dotProduct, Fin.sum_univ_two, hz] at h6
  exact n0 h6

/-- C156: for two chains with different velocities at the same momentum the result is wrong as well. -/
theorem C156_counterexample_speed (e : ModeNum 2) (he : e.Ok) (h1 : e.eps ≤ 1 / 10) (h2 : e.velEps ≤ 1 / 10) :
    Related 1 true false (diagH 0) (diagonal ![3, 2]) (diagH 0) (diagonal ![3, 2]) ∧ NotMixedPi (diagH 0) (diagonal ![3, 2]) ∧
    setupLinsys (exNum (diagSvd ![3, 2])) (diagH 0) (diagonal ![3, 2]) none = .ok (diagL 0 ![3, 2]) ∧
    ∃ psi, PropInput (diagL 0 ![3, 2]) (![I, I, -I, -I] : Fin 4 → ℂ) psi ∧ ∀ junk, ∃ o,
      makeProperModes e ⟨some 1, none, none⟩ junk ![I, I, -I, -I] psi (diagL 0 ![3, 2]).extract = .ok o ∧
      ¬ProperSpec (diagH 0) (diagonal ![3, 2]) (diagL 0 ![3, 2]) o := by
  have ht : (fun j => (((![3, 2] : Fin 2 → ℝ) j : ℝ) : ℂ)) = ![3, 2] := by
    ext j
    fin_cases j <;> simp
  have d := cosLead ![3, 2] (by simp) (by norm_num) (by norm_num)
  have hcard := cosCard ![3, 2] (fun j => by fin_cases j <;> simp)
  rw [ht] at d hcard
  have hS := d.setup (by norm_num)
  obtain ⟨psi, hpsi⟩ := d.input (by norm_num)
  refine ⟨⟨by simp, by simp, by rw [diagH_zero]; simp, ?_⟩, ?_, hS, psi, hpsi, fun junk => ?_⟩
  · rw [diagonal_map (map_zero _), Matrix.mul_one, Matrix.one_mul]
    ext i j
    fin_cases i <;> fin_cases j <;> simp [cj, Complex.conj_ofNat]
  · refine d.notMixedPi ?_
    intro i h5
    have := congrArg Complex.im h5
    fin_cases i <;> simp at this
  obtain ⟨o, ho⟩ := d.ok_tr (by norm_num) hpsi e he (cos_sep e h1) (by
    intro i
    fin_cases i <;> simp [diagVel] <;> linarith) hcard 1 junk
  refine ⟨o, ho, fun hp => ?_⟩
  obtain ⟨u, hf⟩ := setup_faithful _ (exNum_ok d.svd_ok) hS d.cut (by simp)
  obtain ⟨τ, hτ⟩ := d.proper hf hp
  obtain ⟨k0, v0, _, _⟩ := hτ 0
  obtain ⟨k1, v1, ⟨j1, n1⟩, s1⟩ := hτ 1
  obtain ⟨k2, v2, _, s2⟩ := hτ 2
  obtain ⟨k3, v3, _, _⟩ := hτ 3
  have w0 : o.velocities (τ 0) = 6 := v0.trans cos32_vel.1
  have w1 : o.velocities (τ 1) = 4 := v1.trans cos32_vel.2.1
  have w2 : o.velocities (τ 2) = -6 := v2.trans cos32_vel.2.2.1
  have w3 : o.velocities (τ 3) = -4 := v3.trans cos32_vel.2.2.2
  have q0 : o.momenta (τ 0) = o.momenta (τ 1) := k0.trans k1.symm
  have q2 : o.momenta (τ 2) = o.momenta (τ 3) := k2.trans k3.symm
  have p0 : ¬2 * (τ 0).val < 4 := fun h0 => by have := (hp.halves _).mpr h0; linarith
  have p1 : ¬2 * (τ 1).val < 4 := fun h0 => by have := (hp.halves _).mpr h0; linarith
  have p2 : 2 * (τ 2).val < 4 := (hp.halves _).mp (by linarith)
  have p3 : 2 * (τ 3).val < 4 := (hp.halves _).mp (by linarith)
  have o1 : ¬τ 0 < τ 1 := by
    intro h0
    rcases hp.sorted' _ _ h0 (by linarith) (by linarith) with h3 | h3 <;> linarith [h3]
  have o2 : ¬τ 3 < τ 2 := by
    intro h0
    rcases hp.sorted _ _ h0 (by linarith) (by linarith) with h3 | h3 <;> linarith [h3]
  have n12 : τ 0 ≠ τ 1 := fun h0 => by have := τ.injective h0; simp at this
  have n03 : τ 3 ≠ τ 2 := fun h0 => by have := τ.injective h0; simp at this
  have t2 : τ 2 = 0 := Fin.ext (show (τ 2).val = 0 by omega)
  have t1 : τ 1 = 2 := Fin.ext (show (τ 1).val = 2 by omega)
  rw [t1] at n1 s1 w1
  rw [t2] at s2 w2
  have hor : _ = _ := C156_order e he 1 none _ psi _ junk ho (0 : Fin 2)
  have hi2 : secondHalf 4 (0 : Fin 2) = 2 := rfl
  have hi0 : firstHalf 4 (0 : Fin 2) = 0 := rfl
  rw [hi2, hi0, w1, w2] at hor
  have hz : o.waveFunctions 1 0 = 0 := by
    by_contra h0
    have : diagVel ![3, 2] 1 (-I) = diagVel ![3, 2] 0 (-I) := (s2 1 h0).2
    rw [cos32_vel.2.2.1, cos32_vel.2.2.2] at this
    norm_num at this
  have hj1 : j1 = 1 := by
    have := (s1 j1 n1).2
    fin_cases j1
    · have : diagVel ![3, 2] 0 I = diagVel ![3, 2] 1 I := this
      rw [cos32_vel.1, cos32_vel.2.1] at this
      norm_num at this
    · rfl
  subst hj1
  have h6 := congrFun hor 1
  simp [hz] at h6
  exact n1 h6

end Kwant.Leads
