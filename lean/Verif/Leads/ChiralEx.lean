import Verif.Leads.Chiral
import Verif.Leads.TimeRevEx

/-!
C157: the condition is necessary, and an example.
-/

set_option linter.unusedSectionVars false

namespace Kwant.Leads
open Matrix Complex

variable {n N : ℕ}

theorem VelState.unique {h hop : Matrix (Fin n) (Fin n) ℂ} {μ : ℂ} {v w : ℝ} {ψ : Fin n → ℂ} (h0 : ψ ≠ 0) (h1 : VelState h hop μ v ψ) (h2 : VelState h hop μ w ψ) : v = w := by
  have h3 := h1.2 ψ h1.1
  rw [h2.2 ψ h1.1] at h3
  have h4 : star ψ ⬝ᵥ ψ ≠ 0 := by
    intro h5
    open scoped ComplexOrder in exact h0 (dotProduct_star_self_eq_zero.mp (by rwa [dotProduct_comm] at h5 ⊢))
  exact_mod_cast (mul_right_cancel₀ h4 h3).symm

theorem VelState.smul {h hop : Matrix (Fin n) (Fin n) ℂ} {μ : ℂ} (hμ : μ ≠ 0) {v : ℝ} {ψ : Fin n → ℂ} (h1 : VelState h hop μ v ψ) (a : ℂ) : VelState h hop μ v (a • ψ) := by
  constructor
  · have := (isBloch_iff h hop hμ _).mp h1.1
    rw [isBloch_iff h hop hμ]
    simp only [mulVec_smul] at this ⊢
    have h2 := congrArg (a • ·) this
    simpa [smul_add, smul_comm a] using h2
  · intro φ hφ
    rw [mulVec_smul, dotProduct_smul, dotProduct_smul, h1.2 φ hφ, smul_eq_mul, smul_eq_mul]
    ring

/-- There are modes for every velocity of the lead. -/
theorem Good.exists_mode {r : ℕ} {h hop : Matrix (Fin n) (Fin n) ℂ} {u v : Matrix (Fin n) (Fin r) ℂ} {lam : Fin N → ℂ} {psi : Matrix (Fin r ⊕ Fin r) (Fin N) ℂ}
    {full : Matrix (Fin n) (Fin N) ℂ} {vel : Fin N → ℝ} (hg : Good h hop u v lam psi full vel) {μ : ℂ} (hμ : ‖μ‖ = 1) {w : ℝ} {ψ : Fin n → ℂ} (h0 : ψ ≠ 0)
    (hψ : VelState h hop μ w ψ) : ∃ i, lam i = μ ∧ vel i = w := by
  obtain ⟨c, _, hc, hx⟩ := hg.expand hμ hψ
  by_contra hne
  push Not at hne
  apply h0
  have : c = 0 := funext fun i => hc i fun h1 => hne i h1.1 h1.2
  rw [hx, this, mulVec_zero]

section main
variable {h hop : Matrix (Fin n) (Fin n) ℂ} {L : Linsys n}

/-- C157: the condition on the velocities is necessary: otherwise the result does not consist of proper modes. -/
theorem C157_converse (en : Numerics n) (hen : en.Ok hop) {stab : Option (Option Bool × Bool)}
    (hL : setupLinsys en h hop stab = .ok L) (hc : CutExact en hop) (hst : ∀ s0, stab = some (s0, true) → NoInfinite h hop)
    (e : ModeNum n) (he : e.Ok) {lam : Fin N → ℂ} {psi : Matrix (Fin L.r ⊕ Fin L.r) (Fin N) ℂ} (hi : PropInput L lam psi) (hs : Separated e lam)
    {ch : Matrix (Fin n) (Fin n) ℂ} (hr : Related ch false true h hop h hop)
    (junk : Fin N → ℝ) {o : Proper n L.r N} (ho : makeProperModes e ⟨none, none, some ch⟩ junk lam psi L.extract = .ok o) (hp : ProperSpec h hop L o) : OneSpeed h hop := by
  obtain ⟨u, hf⟩ := setup_faithful en hen hL hc hst
  obtain ⟨hn, hall⟩ := clusters_split e he hs
  have hgood := hp.good hf
  rw [makeProperModes, runClusters_eq] at ho
  split at ho
  · cases ho
  rename_i m hm
  rw [runSteps_comp (diagStep e) (chiralStep (some ch) none) _ (fun m m' => clusterStep_chiral e ch m m') hn hall] at hm
  obtain ⟨m1, hm1, hm2⟩ := hm
  obtain ⟨g1, g2, g3, _⟩ := diag_loop e he hf hi hs hm1
  have hcl := diag_clusters e he hf hi hs hm1
  obtain ⟨k1, k2, k3⟩ := chiral_keep _ _ _ hm2
  obtain ⟨st, _⟩ := runSteps_spec _ _ _ _ hn hm2
  split at ho
  swap
  · cases ho
  rename_i hv
  have h0 : ∀ i, m1.vel i ≠ 0 := by
    intro i h0
    rw [velCheck, decide_eq_true_eq, k2] at hv
    refine hv.1 i ?_
    rw [h0, abs_zero]
    exact he.velEps
  -- the modes at one momentum
  have key : ∀ i j, lam i = lam j → 0 < m1.vel i → m1.vel i < m1.vel j → False := by
    intro i j hij hpos hlt
    obtain ⟨c, hc', hic⟩ := List.mem_flatten.mp (hall i)
    obtain ⟨a, rfl⟩ := List.get_of_mem hic
    have hcc := hcl c hc'
    obtain ⟨b, rfl⟩ := hcc.all a j hij.symm
    have heven := hcc.even g1 hi.unit hr (fun i => h0 _)
    have hlen : 0 < c.length / 2 := by
      have := a.2
      omega
    have hb1 := hcc.rev g1 hi.unit hr b
    have hfirst : m1.vel (c.get (firstHalf _ ⟨0, hlen⟩)) ≤ m1.vel (c.get b.rev) := hcc.mono (Nat.zero_le _ : (0 : ℕ) ≤ b.rev.val)
    have ha : ¬2 * a.val < c.length := by
      intro h3
      have := hcc.neg g1 hi.unit hr (fun i => h0 _) a h3
      linarith
    have hsecond : m1.vel (c.get (secondHalf _ ⟨0, hlen⟩)) ≤ m1.vel (c.get a) := by
      refine hcc.mono ?_
      show c.length / 2 + 0 ≤ a.val
      omega
    have hst' := st c hc'
    rw [chiralStep, if_neg (by omega)] at hst'
    have hfull : (m.take c.get).full.col (secondHalf _ ⟨0, hlen⟩) = ch *ᵥ m1.full.col (c.get (firstHalf _ ⟨0, hlen⟩)) := by
      rw [← Except.ok.inj hst']
      dsimp only
      rw [updCols_col_sel (secondHalf_inj _)]
      rfl
    have hvs := (g1.velState hi.unit (c.get (firstHalf _ ⟨0, hlen⟩))).map hr (hi.unit _)
    have e1 : sgn false true * m1.vel (c.get (firstHalf _ ⟨0, hlen⟩)) = -m1.vel (c.get (firstHalf _ ⟨0, hlen⟩)) := by rw [sgn]; simp
    have e2 : ch *ᵥ (cj false ∘ m1.full.col (c.get (firstHalf _ ⟨0, hlen⟩))) = m.full.col (c.get (secondHalf _ ⟨0, hlen⟩)) := hfull.symm
    have e3 : cj false (lam (c.get (firstHalf _ ⟨0, hlen⟩))) = lam (c.get (secondHalf _ ⟨0, hlen⟩)) := hcc.same _ _
    rw [e1, e2, e3] at hvs
    -- the same mode in the result
    rw [k1, g2] at ho
    dsimp only at ho
    generalize hσ : Tuple.sort (sortKey m.vel (fun i => -(lam i).arg) m.trim) = σ at ho
    have hpar : partners e ⟨none, none, some ch⟩ ((fun i => -(lam i).arg) ∘ σ) (m.full.submatrix id σ, m.psi.submatrix id σ) =
        (m.full.submatrix id σ, m.psi.submatrix id σ) := rfl
    rw [hpar] at ho
    have ho' := Except.ok.inj ho
    set x := c.get (secondHalf _ ⟨0, hlen⟩) with hx
    have hvel : o.velocities (σ.symm x) = m1.vel x := by
      rw [← ho', ← k2]
      show m.vel (σ (σ.symm x)) = _
      rw [Equiv.apply_symm_apply]
    have hmom : o.momenta (σ.symm x) = -(lam x).arg := by
      rw [← ho']
      show -(lam (σ (σ.symm x))).arg = _
      rw [Equiv.apply_symm_apply]
    have hwave : o.waveFunctions.col (σ.symm x) = ((Real.sqrt |m.vel x| : ℝ) : ℂ)⁻¹ • m.full.col x := by
      rw [← ho']
      dsimp only
      rw [div_col]
      have q1 : (m.vel ∘ σ) (σ.symm x) = m.vel x := by rw [Function.comp_apply, Equiv.apply_symm_apply]
      have q2 : (m.full.submatrix id σ).col (σ.symm x) = m.full.col x := by
        ext y
        simp
      rw [q1, q2]
    have hlamx : cexp (-(I * o.momenta (σ.symm x))) = lam x := by
      rw [hmom]
      exact cexp_arg (hi.unit x)
    have hvs2 := hgood.velState (fun i => by
      rw [show -(I * (o.momenta i : ℂ)) = ((-o.momenta i : ℝ) : ℂ) * I by push_cast; ring, Complex.norm_exp_ofReal_mul_I]) (σ.symm x)
    have hne2 := hgood.ne_zero (σ.symm x)
    have hc2 : (of fun x i => ((Real.sqrt |o.velocities i| : ℝ) : ℂ) * o.waveFunctions x i : Matrix (Fin n) (Fin N) ℂ).col (σ.symm x) =
        ((Real.sqrt |o.velocities (σ.symm x)| : ℝ) : ℂ) • o.waveFunctions.col (σ.symm x) := rfl
    rw [hc2, hwave] at hvs2 hne2
    rw [hlamx, hvel] at hvs2
    have hvs3 := (hvs.smul (unit_ne (hi.unit x)) (((Real.sqrt |m.vel x| : ℝ) : ℂ)⁻¹)).smul (unit_ne (hi.unit x)) (((Real.sqrt |o.velocities (σ.symm x)| : ℝ) : ℂ))
    rw [hvel] at hvs3 hne2
    have := VelState.unique hne2 hvs2 hvs3
    linarith
  have key2 : ∀ i j, lam i = lam j → 0 < m1.vel i → 0 < m1.vel j → m1.vel i = m1.vel j := by
    intro i j hij h3 h4
    rcases lt_trichotomy (m1.vel i) (m1.vel j) with h5 | h5 | h5
    · exact (key i j hij h3 h5).elim
    · exact h5
    · exact (key j i hij.symm h4 h5).elim
  rintro μ v w hμ ⟨ψ, hψ, hv1⟩ ⟨φ, hφ, hw1⟩ hvw
  have hinv : ∀ ψ : Fin n → ℂ, ψ ≠ 0 → ch *ᵥ (cj false ∘ ψ) ≠ 0 := by
    intro ψ hψ h3
    apply hψ
    have h4 := congrArg (fun x => chᴴ *ᵥ x) h3
    simp only [mulVec_mulVec, hr.left, one_mulVec, mulVec_zero] at h4
    exact h4
  rcases pos_and_pos_or_neg_and_neg_of_mul_pos hvw with ⟨p1, p2⟩ | ⟨p1, p2⟩
  · obtain ⟨i, hi1, rfl⟩ := g1.exists_mode hμ hψ hv1
    obtain ⟨j, hj1, rfl⟩ := g1.exists_mode hμ hφ hw1
    exact key2 i j (hi1.trans hj1.symm) p1 p2
  · obtain ⟨i, hi1, hi2⟩ := g1.exists_mode (by rw [norm_cj, hμ]) (hinv ψ hψ) (hv1.map hr hμ)
    obtain ⟨j, hj1, hj2⟩ := g1.exists_mode (by rw [norm_cj, hμ]) (hinv φ hφ) (hw1.map hr hμ)
    have e1 : sgn false true = -1 := by rw [sgn]; simp
    rw [e1] at hi2 hj2
    have := key2 i j (hi1.trans hj1.symm) (by linarith) (by linarith)
    linarith

end main

/-! ### Chains without energies and with real hoppings -/

/-- The phase factors of the modes of chains -/
noncomputable def cosLam (n : ℕ) : Fin (n + n) → ℂ := Fin.append (fun _ => I) fun _ => -I

/-- The chains of the modes -/
def cosOrb (n : ℕ) : Fin (n + n) → Fin n := Fin.append id id

theorem cos_eqs (j : Fin n) : cosLam n (Fin.castAdd n j) = I ∧ cosLam n (Fin.natAdd n j) = -I ∧ cosOrb n (Fin.castAdd n j) = j ∧ cosOrb n (Fin.natAdd n j) = j := by
  refine ⟨?_, ?_, ?_, ?_⟩ <;> simp only [cosLam, cosOrb, Fin.append_left, Fin.append_right, id_eq]

theorem cosLeadN (t : Fin n → ℝ) (h0 : ∀ j, t j ≠ 0) (h1 : Antitone fun j => |t j|) (h2 : ∀ i j, |t i| < 2 * |t j|) :
    DiagLead 0 (fun j => (t j : ℂ)) (cosLam n) (cosOrb n) := by
  refine ⟨?_, ?_, ?_, ?_, ?_, ?_⟩
  · intro i
    refine Fin.addCases (fun i => ?_) (fun i => ?_) i <;> simp only [cos_eqs] <;> simp
  · intro i
    refine Fin.addCases (fun i => ?_) (fun i => ?_) i <;> simp only [cos_eqs] <;> simp
  · intro i j
    refine Fin.addCases (fun i => ?_) (fun i => ?_) i <;> refine Fin.addCases (fun j => ?_) (fun j => ?_) j <;> intro h3 h4 <;>
      simp only [cosLam, cosOrb, Fin.append_left, Fin.append_right, id_eq] at h3 h4
    · rw [h4]
    · exact absurd h3 I_ne_neg
    · exact absurd h3.symm I_ne_neg
    · rw [h4]
  · intro j μ hμ h3
    have hμ0 := unit_ne hμ
    have ht : (t j : ℂ) ≠ 0 := by exact_mod_cast h0 j
    simp only [Pi.zero_apply, Complex.ofReal_zero, zero_add, Complex.conj_ofReal, ← add_mul] at h3
    have h4 := (mul_eq_zero.mp h3).resolve_right ht
    have h5 : (μ - I) * (μ + I) = 0 := by
      have : μ * μ + 1 = 0 := by
        have := congrArg (μ * ·) h4
        simpa [mul_add, hμ0] using this
      linear_combination this - I_mul_I
    rcases mul_eq_zero.mp h5 with h6 | h6
    · exact ⟨Fin.castAdd n j, (cos_eqs j).2.2.1, by rw [(cos_eqs j).1, sub_eq_zero.mp h6]⟩
    · exact ⟨Fin.natAdd n j, (cos_eqs j).2.2.2, by rw [(cos_eqs j).2.1, eq_neg_of_add_eq_zero_left h6]⟩
  · intro i j hij
    simpa using h1 hij
  · intro i j
    simpa using h2 i j

theorem cosN_sep (e : ModeNum n) (he : e.eps ≤ 1 / 10) : Separated e (cosLam n) := by
  have h2 : ‖(2 : ℂ) * I‖ = 2 := by simp
  have h3 : ‖I - -I‖ = 2 := by rw [← h2]; congr 1; ring
  have h4 : ‖-I - I‖ = 2 := by rw [← norm_neg, ← h2]; congr 1; ring
  intro i j
  refine Fin.addCases (fun i => ?_) (fun i => ?_) i <;> refine Fin.addCases (fun j => ?_) (fun j => ?_) j <;> intro h5 <;>
      simp only [cosLam, Fin.append_left, Fin.append_right, h3, h4] at h5 ⊢
  all_goals linarith

theorem cosN_vel (t : Fin n → ℝ) (j : Fin n) : diagVel (fun j => (t j : ℂ)) (cosOrb n (Fin.castAdd n j)) (cosLam n (Fin.castAdd n j)) = 2 * t j ∧
    diagVel (fun j => (t j : ℂ)) (cosOrb n (Fin.natAdd n j)) (cosLam n (Fin.natAdd n j)) = -(2 * t j) := by
  constructor <;> simp only [cos_eqs] <;> simp [diagVel]

theorem cosN_card (t : Fin n → ℝ) (h0 : ∀ j, t j ≠ 0) : 2 * (Finset.univ.filter fun i => diagVel (fun j => (t j : ℂ)) (cosOrb n i) (cosLam n i) < 0).card = n + n := by
  rw [Finset.card_filter, Fin.sum_univ_add, ← Finset.sum_add_distrib]
  have : ∀ j : Fin n, ((if diagVel (fun j => (t j : ℂ)) (cosOrb n (Fin.castAdd n j)) (cosLam n (Fin.castAdd n j)) < 0 then 1 else 0) +
      if diagVel (fun j => (t j : ℂ)) (cosOrb n (Fin.natAdd n j)) (cosLam n (Fin.natAdd n j)) < 0 then 1 else 0) = 1 := by
    intro j
    rw [(cosN_vel t j).1, (cosN_vel t j).2]
    rcases lt_or_gt_of_ne (h0 j) with h1 | h1
    · rw [if_pos (by linarith), if_neg (by linarith)]
    · rw [if_neg (by linarith), if_pos (by linarith)]
  rw [Finset.sum_congr rfl fun j _ => this j]
  simp
  omega

/-- The matrix that permutes the orbitals -/
noncomputable def permMat (σ : Equiv.Perm (Fin n)) : Matrix (Fin n) (Fin n) ℂ := (1 : Matrix (Fin n) (Fin n) ℂ).submatrix σ id

theorem permMat_right (σ : Equiv.Perm (Fin n)) : permMat σ * (permMat σ)ᴴ = 1 := by
  rw [permMat, conjTranspose_submatrix, conjTranspose_one, ← submatrix_mul _ _ _ _ _ Function.bijective_id, Matrix.one_mul, submatrix_one_equiv]

theorem permMat_left (σ : Equiv.Perm (Fin n)) : (permMat σ)ᴴ * permMat σ = 1 := by
  rw [permMat, conjTranspose_submatrix, conjTranspose_one, ← submatrix_mul _ _ _ _ _ σ.bijective, Matrix.one_mul, submatrix_id_id]

/-- Chains that are exchanged by `σ` have a chiral symmetry if the hoppings are opposite. -/
theorem cosN_chiral (t : Fin n → ℝ) (σ : Equiv.Perm (Fin n)) (hσ : ∀ j, t (σ j) = -t j) :
    Related (permMat σ) false true (diagH 0) (diagonal fun j => (t j : ℂ)) (diagH 0) (diagonal fun j => (t j : ℂ)) := by
  refine ⟨permMat_left σ, permMat_right σ, ?_, ?_⟩
  · rw [diagH_zero]
    simp
  · ext i j
    have e1 : (diagonal fun j => (t j : ℂ)).map (cj false) = diagonal fun j => (t j : ℂ) := by
      rw [diagonal_map (map_zero _)]
      rfl
    rw [e1, Matrix.smul_apply, diagonal_mul, mul_diagonal]
    simp only [permMat, submatrix_apply, id_eq, Matrix.one_apply]
    by_cases hij : σ i = j
    · subst hij
      simp [hσ]
    · simp [hij]

/-- With chiral symmetry, modes are returned. -/
theorem cosN_ok (hn : 0 < n) (t : Fin n → ℝ) (h0 : ∀ j, t j ≠ 0) (h1 : Antitone fun j => |t j|) (h2 : ∀ i j, |t i| < 2 * |t j|) (σ : Equiv.Perm (Fin n)) (hσ : ∀ j, t (σ j) = -t j)
    (e : ModeNum n) (he : e.Ok) (h3 : e.eps ≤ 1 / 10) (h4 : ∀ j, e.velEps ≤ |t j|) {psi} (hp : PropInput (diagL 0 fun j => (t j : ℂ)) (cosLam n) psi) (junk : Fin (n + n) → ℝ) :
    ∃ o, makeProperModes e ⟨none, none, some (permMat σ)⟩ junk (cosLam n) psi (diagL 0 fun j => (t j : ℂ)).extract = .ok o := by
  have d := cosLeadN t h0 h1 h2
  refine (C157_error _ (exNum_ok d.svd_ok) (d.setup hn) d.cut (by simp) e he hp (cosN_sep e h3) (cosN_chiral t σ hσ) junk).mpr ?_
  refine d.ok hn hp e he (cosN_sep e h3) ?_ (cosN_card t h0) junk
  intro i
  refine Fin.addCases (fun i => ?_) (fun i => ?_) i
  · rw [(cosN_vel t i).1, abs_mul]
    have := h4 i
    norm_num
    have := abs_nonneg (t i)
    linarith
  · rw [(cosN_vel t i).2, abs_neg, abs_mul]
    have := h4 i
    norm_num
    have := abs_nonneg (t i)
    linarith

/-- C157: two chains with opposite hoppings -/
theorem C157_example (e : ModeNum 2) (he : e.Ok) (h1 : e.eps ≤ 1 / 10) (h2 : e.velEps ≤ 1 / 10) :
    let t : Fin 2 → ℝ := ![1, -1]
    let hop : Matrix (Fin 2) (Fin 2) ℂ := diagonal fun j => (t j : ℂ)
    let ch := permMat (Equiv.swap (0 : Fin 2) 1)
    Related ch false true (diagH 0) hop (diagH 0) hop ∧ OneSpeed (diagH 0) hop ∧
    setupLinsys (exNum (diagSvd fun j => (t j : ℂ))) (diagH 0) hop none = .ok (diagL 0 fun j => (t j : ℂ)) ∧
    ∃ psi, PropInput (diagL 0 fun j => (t j : ℂ)) (cosLam 2) psi ∧ ∀ junk, ∃ o,
      makeProperModes e ⟨none, none, some ch⟩ junk (cosLam 2) psi (diagL 0 fun j => (t j : ℂ)).extract = .ok o ∧
      ProperSpec (diagH 0) hop (diagL 0 fun j => (t j : ℂ)) o ∧ ChiralPartners ch o := by
  intro t hop ch
  have habs : ∀ j, |t j| = 1 := by
    intro j
    fin_cases j <;> simp [t]
  have hne : ∀ j, t j ≠ 0 := fun j h0 => by have := habs j; rw [h0] at this; simp at this
  have hanti : Antitone fun j => |t j| := fun i j _ => by simp only [habs]; exact le_rfl
  have hlt : ∀ i j, |t i| < 2 * |t j| := fun i j => by rw [habs, habs]; norm_num
  have hσ : ∀ j, t (Equiv.swap (0 : Fin 2) 1 j) = -t j := by
    intro j
    fin_cases j <;> simp [t]
  have d := cosLeadN t hne hanti hlt
  have hone : OneSpeed (diagH 0) hop := by
    refine d.oneSpeed ?_
    intro i j
    refine Fin.addCases (fun i => ?_) (fun i => ?_) i <;> refine Fin.addCases (fun j => ?_) (fun j => ?_) j <;> intro h5 h6
    · rw [(cosN_vel t i).1, (cosN_vel t j).1] at h6 ⊢
      fin_cases i <;> fin_cases j <;> simp [t] at h6 ⊢ <;> linarith
    · simp only [cosLam, Fin.append_left, Fin.append_right] at h5
      exact absurd h5 I_ne_neg
    · simp only [cosLam, Fin.append_left, Fin.append_right] at h5
      exact absurd h5.symm I_ne_neg
    · rw [(cosN_vel t i).2, (cosN_vel t j).2] at h6 ⊢
      fin_cases i <;> fin_cases j <;> simp [t] at h6 ⊢ <;> linarith
  have hr := cosN_chiral t _ hσ
  obtain ⟨psi, hpsi⟩ := d.input (by norm_num)
  refine ⟨hr, hone, d.setup (by norm_num), psi, hpsi, fun junk => ?_⟩
  obtain ⟨o, ho⟩ := cosN_ok (by norm_num) t hne hanti hlt _ hσ e he h1 (fun j => by rw [habs]; linarith) hpsi junk
  exact ⟨o, ho, C157_modes_partial _ (exNum_ok d.svd_ok) (d.setup (by norm_num)) d.cut (by simp) e he hpsi (cosN_sep e h1) hr hone junk ho⟩

/-- C157: four chains, with two different speeds at the same momentum: the result is wrong. -/
theorem C157_counterexample (e : ModeNum 4) (he : e.Ok) (h1 : e.eps ≤ 1 / 10) (h2 : e.velEps ≤ 1 / 10) :
    let t : Fin 4 → ℝ := ![3, -3, 2, -2]
    let hop : Matrix (Fin 4) (Fin 4) ℂ := diagonal fun j => (t j : ℂ)
    let ch := permMat ((Equiv.swap (0 : Fin 4) 1).trans (Equiv.swap 2 3))
    Related ch false true (diagH 0) hop (diagH 0) hop ∧
    setupLinsys (exNum (diagSvd fun j => (t j : ℂ))) (diagH 0) hop none = .ok (diagL 0 fun j => (t j : ℂ)) ∧
    ∃ psi, PropInput (diagL 0 fun j => (t j : ℂ)) (cosLam 4) psi ∧ ∀ junk, ∃ o,
      makeProperModes e ⟨none, none, some ch⟩ junk (cosLam 4) psi (diagL 0 fun j => (t j : ℂ)).extract = .ok o ∧
      ¬ProperSpec (diagH 0) hop (diagL 0 fun j => (t j : ℂ)) o := by
  intro t hop ch
  have habs : (fun j => |t j|) = ![3, 3, 2, 2] := by
    ext j
    fin_cases j <;> simp [t]
  have habs' : ∀ j, |t j| = (![3, 3, 2, 2] : Fin 4 → ℝ) j := fun j => congrFun habs j
  have hne : ∀ j, t j ≠ 0 := by
    intro j
    fin_cases j <;> simp [t]
  have hanti : Antitone fun j => |t j| := by
    rw [habs]
    intro i j hij
    fin_cases i <;> fin_cases j <;> simp at hij ⊢ <;> norm_num
  have hlt : ∀ i j, |t i| < 2 * |t j| := by
    intro i j
    rw [habs', habs']
    fin_cases i <;> fin_cases j <;> norm_num
  have hσ : ∀ j, t (((Equiv.swap (0 : Fin 4) 1).trans (Equiv.swap 2 3)) j) = -t j := by
    have : ∀ j, (Equiv.swap (0 : Fin 4) 1).trans (Equiv.swap 2 3) j = ![1, 0, 3, 2] j := by decide
    intro j
    rw [this]
    fin_cases j <;> simp [t]
  have d := cosLeadN t hne hanti hlt
  have hr := cosN_chiral t _ hσ
  obtain ⟨psi, hpsi⟩ := d.input (by norm_num)
  refine ⟨hr, d.setup (by norm_num), psi, hpsi, fun junk => ?_⟩
  obtain ⟨o, ho⟩ := cosN_ok (by norm_num) t hne hanti hlt _ hσ e he h1 (fun j => by rw [habs']; fin_cases j <;> norm_num <;> linarith) hpsi junk
  refine ⟨o, ho, fun hp => ?_⟩
  have hone := C157_converse _ (exNum_ok d.svd_ok) (d.setup (by norm_num)) d.cut (by simp) e he hpsi (cosN_sep e h1) hr junk ho hp
  have hst : ∀ j : Fin 4, ∃ ψ, ψ ≠ 0 ∧ VelState (diagH 0) hop I (2 * t j) ψ := by
    intro j
    refine ⟨Pi.single j 1, by simp, (diag_velState (by simp)).mpr ⟨(d.on_iff (by simp) _).mpr ?_, ?_⟩⟩
    · intro k hk
      exact ⟨Fin.castAdd 4 k, (cos_eqs k).2.2.1, (cos_eqs k).1⟩
    · intro k hk
      have : k = j := by
        by_contra h3
        exact hk (Pi.single_eq_of_ne h3 _)
      rw [this]
      simp [diagVel]
  have t0 : t 0 = 3 := rfl
  have t2 : t 2 = 2 := rfl
  have := hone I (2 * t 0) (2 * t 2) (by simp) (hst 0) (hst 2) (by rw [t0, t2]; norm_num)
  rw [t0, t2] at this
  norm_num at this

end Kwant.Leads
