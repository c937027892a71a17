import Verif.Leads.PartHoleOrder
import Verif.Leads.ChiralEx
import Verif.Leads.PhsNum

/-!
C158 and C159: examples, and counterexamples to the statements without their hypotheses.
-/

set_option linter.unusedSectionVars false
set_option linter.unusedSimpArgs false

namespace Kwant.Leads
open Matrix Complex

variable {n N : ℕ}

/-! ### Chains without energies and with hoppings of any phase -/

/-- The hoppings of chains whose modes have the phase factors `± z j` and the velocities `± 2 s j` -/
noncomputable def phT (s : Fin n → ℝ) (z : Fin n → ℂ) (j : Fin n) : ℂ := (s j : ℂ) * (starRingEnd ℂ) (z j) * I

/-- The phase factors of the modes -/
noncomputable def phLam (z : Fin n → ℂ) : Fin (n + n) → ℂ := Fin.append z fun j => -z j

theorem ph_eqs (z : Fin n → ℂ) (j : Fin n) : phLam z (Fin.castAdd n j) = z j ∧ phLam z (Fin.natAdd n j) = -z j ∧ cosOrb n (Fin.castAdd n j) = j ∧ cosOrb n (Fin.natAdd n j) = j := by
  refine ⟨?_, ?_, ?_, ?_⟩ <;> simp only [phLam, cosOrb, Fin.append_left, Fin.append_right, id_eq]

section lead
variable {s : Fin n → ℝ} {z : Fin n → ℂ}

theorem conj_mul_unit {z : ℂ} (hz : ‖z‖ = 1) : z * (starRingEnd ℂ) z = 1 := by
  rw [Complex.mul_conj, Complex.normSq_eq_norm_sq, hz]
  norm_num

theorem norm_phT (hz : ∀ j, ‖z j‖ = 1) (j : Fin n) : ‖phT s z j‖ = |s j| := by
  simp [phT, hz]

theorem phT_vel (hz : ∀ j, ‖z j‖ = 1) (j : Fin n) : diagVel (phT s z) j (z j) = 2 * s j ∧ diagVel (phT s z) j (-z j) = -(2 * s j) := by
  have h1 : z j * phT s z j = (s j : ℂ) * I := by
    rw [phT]
    linear_combination (s j : ℂ) * I * conj_mul_unit (hz j)
  constructor
  · rw [diagVel, h1]
    simp
  · rw [diagVel, neg_mul, h1]
    simp

theorem phLead (s : Fin n → ℝ) (z : Fin n → ℂ) (hz : ∀ j, ‖z j‖ = 1) (h0 : ∀ j, s j ≠ 0) (h1 : Antitone fun j => |s j|) (h2 : ∀ i j, |s i| < 2 * |s j|) :
    DiagLead 0 (phT s z) (phLam z) (cosOrb n) := by
  have hz0 : ∀ j, z j ≠ 0 := fun j => unit_ne (hz j)
  have hne : ∀ j, z j ≠ -z j := fun j h3 => hz0 j (by linear_combination h3 / 2)
  have hconj : ∀ j, (starRingEnd ℂ) (phT s z j) = -((s j : ℂ) * z j * I) := by
    intro j
    rw [phT, map_mul, map_mul, Complex.conj_conj, conj_I, Complex.conj_ofReal]
    ring
  have hinv : ∀ j, (z j)⁻¹ = (starRingEnd ℂ) (z j) := fun j => inv_eq_of_mul_eq_one_right (conj_mul_unit (hz j))
  refine ⟨?_, ?_, ?_, ?_, ?_, ?_⟩
  · intro i
    refine Fin.addCases (fun i => ?_) (fun i => ?_) i <;> simp only [ph_eqs, cos_eqs, norm_neg, hz]
  · intro i
    refine Fin.addCases (fun i => ?_) (fun i => ?_) i <;> simp only [ph_eqs, cos_eqs, hconj, inv_neg, hinv, Pi.zero_apply, Complex.ofReal_zero] <;> rw [phT] <;> ring
  · intro i j
    refine Fin.addCases (fun i => ?_) (fun i => ?_) i <;> refine Fin.addCases (fun j => ?_) (fun j => ?_) j <;> intro h3 h4 <;>
      simp only [ph_eqs, cos_eqs] at h3 h4
    · rw [h4]
    · rw [h4] at h3
      exact absurd h3 (hne j)
    · rw [h4] at h3
      exact absurd h3.symm (hne j)
    · rw [h4]
  · intro j μ hμ h3
    have hμ0 := unit_ne hμ
    have hs : (s j : ℂ) ≠ 0 := by exact_mod_cast h0 j
    rw [hconj, phT] at h3
    simp only [Pi.zero_apply, Complex.ofReal_zero, zero_add] at h3
    have h5 : (μ - z j) * (μ + z j) = 0 := by
      have h6 : (s j : ℂ) * I * (μ * (starRingEnd ℂ) (z j) - μ⁻¹ * z j) = 0 := by linear_combination h3
      have h7 := (mul_eq_zero.mp h6).resolve_left (mul_ne_zero hs I_ne_zero)
      have h8 := congrArg (fun x => μ * z j * x) h7
      have h9 := conj_mul_unit (hz j)
      have h10 : μ * μ⁻¹ = 1 := mul_inv_cancel₀ hμ0
      simp only [mul_zero] at h8
      linear_combination h8 - μ * μ * h9 + z j * z j * h10
    rcases mul_eq_zero.mp h5 with h6 | h6
    · exact ⟨Fin.castAdd n j, (ph_eqs z j).2.2.1, by rw [(ph_eqs z j).1, sub_eq_zero.mp h6]⟩
    · exact ⟨Fin.natAdd n j, (ph_eqs z j).2.2.2, by rw [(ph_eqs z j).2.1, eq_neg_of_add_eq_zero_left h6]⟩
  · intro i j hij
    simpa only [norm_phT hz] using h1 hij
  · intro i j
    simpa only [norm_phT hz] using h2 i j

theorem ph_vel (hz : ∀ j, ‖z j‖ = 1) (j : Fin n) : diagVel (phT s z) (cosOrb n (Fin.castAdd n j)) (phLam z (Fin.castAdd n j)) = 2 * s j ∧
    diagVel (phT s z) (cosOrb n (Fin.natAdd n j)) (phLam z (Fin.natAdd n j)) = -(2 * s j) := by
  simp only [ph_eqs, cos_eqs]
  exact phT_vel hz j

theorem ph_card (hz : ∀ j, ‖z j‖ = 1) (h0 : ∀ j, s j ≠ 0) : 2 * (Finset.univ.filter fun i => diagVel (phT s z) (cosOrb n i) (phLam z i) < 0).card = n + n := by
  rw [Finset.card_filter, Fin.sum_univ_add, ← Finset.sum_add_distrib]
  have : ∀ j : Fin n, ((if diagVel (phT s z) (cosOrb n (Fin.castAdd n j)) (phLam z (Fin.castAdd n j)) < 0 then 1 else 0) +
      if diagVel (phT s z) (cosOrb n (Fin.natAdd n j)) (phLam z (Fin.natAdd n j)) < 0 then 1 else 0) = 1 := by
    intro j
    rw [(ph_vel hz j).1, (ph_vel hz j).2]
    rcases lt_or_gt_of_ne (h0 j) with h1 | h1
    · rw [if_pos (by linarith), if_neg (by linarith)]
    · rw [if_neg (by linarith), if_pos (by linarith)]
  rw [Finset.sum_congr rfl fun j _ => this j]
  simp
  omega

/-- All phase factors are `1` or `I`. -/
theorem ph_four (hz : ∀ j, z j = 1 ∨ z j = I) (i : Fin (n + n)) : phLam z i = 1 ∨ phLam z i = -1 ∨ phLam z i = I ∨ phLam z i = -I := by
  refine Fin.addCases (fun i => ?_) (fun i => ?_) i <;> simp only [ph_eqs, cos_eqs] <;> rcases hz i with h1 | h1 <;> rw [h1] <;> simp

theorem ph_norm (hz : ∀ j, z j = 1 ∨ z j = I) (j : Fin n) : ‖z j‖ = 1 := by
  rcases hz j with h1 | h1 <;> rw [h1] <;> simp

theorem four_sep {a b : ℂ} (ha : a = 1 ∨ a = -1 ∨ a = I ∨ a = -I) (hb : b = 1 ∨ b = -1 ∨ b = I ∨ b = -I) (hab : ‖a - b‖ < 1) : a = b := by
  by_contra hne
  have h1 : 1 ≤ Complex.normSq (a - b) := by
    rcases ha with rfl | rfl | rfl | rfl <;> rcases hb with rfl | rfl | rfl | rfl <;> first | exact absurd rfl hne | (simp [Complex.normSq]; done) | (simp [Complex.normSq]; norm_num)
  rw [Complex.normSq_eq_norm_sq] at h1
  have := norm_nonneg (a - b)
  nlinarith

theorem ph_sep (hz : ∀ j, z j = 1 ∨ z j = I) (e : ModeNum n) (he : e.eps ≤ 1 / 10) : Separated e (phLam z) := by
  intro i j hij
  refine four_sep (ph_four hz i) (ph_four hz j) (lt_of_le_of_lt hij ?_)
  linarith

theorem ph_trimSep (hz : ∀ j, z j = 1 ∨ z j = I) (e : ModeNum n) (he : e.eps ≤ 1 / 10) : TrimSep e (phLam z) := by
  intro i
  rcases ph_four hz i with h1 | h1 | h1 | h1
  · exact .inl h1
  · exact .inr (.inl h1)
  · refine .inr (.inr ?_)
    rw [h1]
    simp
    linarith
  · refine .inr (.inr ?_)
    rw [h1]
    simp
    linarith

end lead

theorem DiagLead.vel_of {a : Fin n → ℝ} {t : Fin n → ℂ} {lam : Fin N → ℂ} {orb : Fin N → Fin n} (d : DiagLead a t lam orb) {μ : ℂ} (hμ : ‖μ‖ = 1) {v : ℝ}
    (h1 : ∃ ψ, ψ ≠ 0 ∧ VelState (diagH a) (diagonal t) μ v ψ) : ∃ i, lam i = μ ∧ diagVel t (orb i) (lam i) = v := by
  obtain ⟨ψ, h3, h4⟩ := h1
  obtain ⟨j, hj⟩ := Function.ne_iff.mp h3
  obtain ⟨h5, h6⟩ := (diag_velState hμ).mp h4
  obtain ⟨i, rfl, h8⟩ := (d.on_iff hμ ψ).mp h5 j hj
  exact ⟨i, h8, by rw [h8]; exact h6 _ hj⟩

theorem ph_speed {s : Fin n → ℝ} {z : Fin n → ℂ} (hz : ∀ j, ‖z j‖ = 1) {c : ℝ} (hs : ∀ j, |s j| = c) (i : Fin (n + n)) : |diagVel (phT s z) (cosOrb n i) (phLam z i)| = 2 * c := by
  refine Fin.addCases (fun j => ?_) (fun j => ?_) i
  · rw [(ph_vel hz j).1, abs_mul, hs]
    norm_num
  · rw [(ph_vel hz j).2, abs_neg, abs_mul, hs]
    norm_num

/-- Chains with equal speeds -/
theorem ph_oneSpeed {s : Fin n → ℝ} {z : Fin n → ℂ} (hz : ∀ j, ‖z j‖ = 1) {c : ℝ} (hs : ∀ j, |s j| = c) (d : DiagLead 0 (phT s z) (phLam z) (cosOrb n)) :
    OneSpeed (diagH 0) (diagonal (phT s z)) := by
  refine d.oneSpeed fun i j _ h1 => ?_
  have h2 := ph_speed hz hs i
  have h3 := ph_speed hz hs j
  rcases pos_and_pos_or_neg_and_neg_of_mul_pos h1 with ⟨p1, p2⟩ | ⟨p1, p2⟩
  · rw [abs_of_pos p1] at h2
    rw [abs_of_pos p2] at h3
    linarith
  · rw [abs_of_neg p1] at h2
    rw [abs_of_neg p2] at h3
    linarith

theorem ph_gap {s : Fin n → ℝ} {z : Fin n → ℂ} (hz : ∀ j, ‖z j‖ = 1) {c δ : ℝ} (hc : 0 < c) (hs : ∀ j, |s j| = c) (hδ : δ < c) (d : DiagLead 0 (phT s z) (phLam z) (cosOrb n)) :
    SpeedGap δ (diagH 0) (diagonal (phT s z)) := by
  intro μ v w hμ hv hw hvw
  have hμ' : ‖μ‖ = 1 := by rcases hμ with rfl | rfl <;> simp
  obtain ⟨i, _, rfl⟩ := d.vel_of hμ' hv
  obtain ⟨j, _, rfl⟩ := d.vel_of hμ' hw
  have h2 := ph_speed hz hs i
  have h3 := ph_speed hz hs j
  rw [abs_le] at hvw
  rcases abs_eq (by linarith) |>.mp h2 with h4 | h4 <;> rcases abs_eq (by linarith) |>.mp h3 with h5 | h5 <;> rw [h4, h5] at hvw ⊢ <;> linarith [hvw.1, hvw.2]

/-- Without momenta `0` and `π`, the gap is no problem. -/
theorem ph_gap_away {s : Fin n → ℝ} {z : Fin n → ℂ} (hz : ∀ j, z j = I) {δ : ℝ} (d : DiagLead 0 (phT s z) (phLam z) (cosOrb n)) :
    SpeedGap δ (diagH 0) (diagonal (phT s z)) := by
  intro μ v w hμ hv hw hvw
  exfalso
  have hμ' : ‖μ‖ = 1 := by rcases hμ with rfl | rfl <;> simp
  obtain ⟨i, h1, rfl⟩ := d.vel_of hμ' hv
  have : (phLam z i).re = 0 := by
    refine Fin.addCases (fun j => ?_) (fun j => ?_) i <;> simp only [ph_eqs, cos_eqs, hz] <;> simp
  rw [h1] at this
  rcases hμ with rfl | rfl <;> norm_num at this

theorem ph_ne_pi {z : Fin n → ℂ} (hz : ∀ j, z j = I) (i : Fin (n + n)) : phLam z i ≠ -1 := by
  intro h1
  have : (phLam z i).re = 0 := by
    refine Fin.addCases (fun j => ?_) (fun j => ?_) i <;> simp only [ph_eqs, cos_eqs, hz] <;> simp
  rw [h1] at this
  norm_num at this

theorem ph_count {z : Fin n → ℂ} (μ : ℂ) : countAt (phLam z) μ = (Finset.univ.filter fun j => z j = μ).card + (Finset.univ.filter fun j => -z j = μ).card := by
  classical
  rw [countAt, Finset.card_filter, Fin.sum_univ_add, Finset.card_filter, Finset.card_filter]
  simp only [ph_eqs, cos_eqs]

/-- The chains have a particle-hole symmetry that exchanges them. -/
theorem ph_related {s : Fin n → ℝ} {z : Fin n → ℂ} (σ : Equiv.Perm (Fin n)) (hσ : ∀ j, phT s z (σ j) = -(starRingEnd ℂ) (phT s z j)) (hσ' : ∀ j, σ (σ j) = j) :
    Related (permMat σ) true true (diagH 0) (diagonal (phT s z)) (diagH 0) (diagonal (phT s z)) := by
  refine ⟨permMat_left σ, permMat_right σ, ?_, ?_⟩
  · rw [diagH_zero]
    simp
  · ext i j
    rw [diagonal_map (map_zero _), Matrix.smul_apply, diagonal_mul, mul_diagonal]
    simp only [permMat, submatrix_apply, id_eq, Matrix.one_apply]
    by_cases hij : σ i = j
    · subst hij
      have h1 := hσ (σ i)
      rw [hσ'] at h1
      simp [h1, cj]
    · simp [hij]

theorem permMat_conj (σ : Equiv.Perm (Fin n)) : conjM (permMat σ) = permMat σ := by
  ext i j
  simp only [conjM, permMat, map_apply, submatrix_apply, id_eq, Matrix.one_apply]
  split <;> simp

theorem permMat_sq (σ : Equiv.Perm (Fin n)) (hσ : ∀ j, σ (σ j) = j) : permMat σ * conjM (permMat σ) = 1 := by
  rw [permMat_conj]
  ext i j
  rw [Matrix.mul_apply, Finset.sum_eq_single (σ i)]
  · simp only [permMat, submatrix_apply, id_eq, Matrix.one_apply, hσ]
    simp
  · intro k _ hk
    simp only [permMat, submatrix_apply, id_eq, Matrix.one_apply]
    rw [if_neg (fun h => hk h.symm), zero_mul]
  · simp

theorem permMat_mulVec (σ : Equiv.Perm (Fin n)) (x : Fin n → ℂ) (i : Fin n) : (permMat σ *ᵥ x) i = x (σ i) := by
  rw [mulVec, dotProduct, Finset.sum_eq_single (σ i)]
  · simp [permMat, Matrix.one_apply]
  · intro k _ hk
    simp only [permMat, submatrix_apply, id_eq, Matrix.one_apply]
    rw [if_neg (fun h => hk h.symm), zero_mul]
  · simp

/-- Modes are returned. -/
theorem ph_ok (hn : 0 < n) {s : Fin n → ℝ} {z : Fin n → ℂ} (hz : ∀ j, z j = 1 ∨ z j = I) (h0 : ∀ j, s j ≠ 0) (d : DiagLead 0 (phT s z) (phLam z) (cosOrb n))
    (e : ModeNum n) (he : e.Ok) (hep : e.PhsOk) (h3 : e.eps ≤ 1 / 10) (h4 : ∀ j, e.velEps ≤ |s j|) (hgap : SpeedGap e.velEps (diagH 0) (diagonal (phT s z)))
    {psi} (hp : PropInput (diagL 0 (phT s z)) (phLam z) psi) {ph : Matrix (Fin n) (Fin n) ℂ} (hr : Related ph true true (diagH 0) (diagonal (phT s z)) (diagH 0) (diagonal (phT s z)))
    (hsq : ph * conjM ph = 1 ∨ ph * conjM ph = -1) {tr ch : Option (Matrix (Fin n) (Fin n) ℂ)} (htc : tr = none → ch = none)
    (c1 : countAt (phLam z) 1 % 2 = 0) (c2 : countAt (phLam z) (-1) % 2 = 0) (junk : Fin (n + n) → ℝ) :
    ∃ o, makeProperModes e ⟨tr, some ph, ch⟩ junk (phLam z) psi (diagL 0 (phT s z)).extract = .ok o := by
  refine (C158_error _ (exNum_ok d.svd_ok) (d.setup hn) d.cut (by simp) e he hep (by linarith) hp (ph_sep hz e h3) (ph_trimSep hz e h3) hr hsq hgap htc junk).1.mpr ⟨?_, c1, c2⟩
  refine d.ok hn hp e he (ph_sep hz e h3) ?_ (ph_card (ph_norm hz) h0) junk
  intro i
  refine Fin.addCases (fun i => ?_) (fun i => ?_) i
  · rw [(ph_vel (ph_norm hz) i).1, abs_mul]
    have := h4 i
    norm_num
    have := abs_nonneg (s i)
    linarith
  · rw [(ph_vel (ph_norm hz) i).2, abs_neg, abs_mul]
    have := h4 i
    norm_num
    have := abs_nonneg (s i)
    linarith

/-- Chains without modes at momentum `π` -/
theorem ph_notMixed {s : Fin n → ℝ} {z : Fin n → ℂ} (hz : ∀ j, z j = I) (d : DiagLead 0 (phT s z) (phLam z) (cosOrb n)) : NotMixedPi (diagH 0) (diagonal (phT s z)) :=
  d.notMixedPi (ph_ne_pi hz)

theorem ph_count_I {z : Fin n → ℂ} (hz : ∀ j, z j = I) : countAt (phLam z) 1 = 0 ∧ countAt (phLam z) (-1) = 0 := by
  have h1 : (I : ℂ) ≠ 1 := fun h => by have := congrArg Complex.re h; norm_num at this
  have h2 : (I : ℂ) ≠ -1 := fun h => by have := congrArg Complex.re h; norm_num at this
  have h3 : -(I : ℂ) ≠ 1 := fun h => by have := congrArg Complex.re h; norm_num at this
  have h4 : -(I : ℂ) ≠ -1 := fun h => by have := congrArg Complex.re h; norm_num at this
  simp [ph_count, hz, h1, h2, h3, h4]

/-! ### Examples -/

/-- C158: two chains with opposite hoppings and `P^2 = 1`: the modes are at the momenta `± π/2`. -/
theorem C158_example_plus (e : ModeNum 2) (he : e.Ok) (hep : e.PhsOk) (h1 : e.eps ≤ 1 / 10) (h2 : e.velEps ≤ 1 / 10) :
    let hop : Matrix (Fin 2) (Fin 2) ℂ := diagonal (phT ![1, -1] fun _ => I)
    let ph := permMat (Equiv.swap (0 : Fin 2) 1)
    hop = !![1, 0; 0, -1] ∧ Related ph true true (diagH 0) hop (diagH 0) hop ∧ ph * conjM ph = 1 ∧
    setupLinsys (exNum (diagSvd (phT ![1, -1] fun _ => I))) (diagH 0) hop none = .ok (diagL 0 (phT ![1, -1] fun _ => I)) ∧
    ∃ psi, PropInput (diagL 0 (phT ![1, -1] fun _ => I)) (phLam fun _ : Fin 2 => I) psi ∧ ∀ junk, ∃ o,
      makeProperModes e ⟨none, some ph, none⟩ junk (phLam fun _ : Fin 2 => I) psi (diagL 0 (phT ![1, -1] fun _ => I)).extract = .ok o ∧
      ProperSpec (diagH 0) hop (diagL 0 (phT ![1, -1] fun _ => I)) o ∧ ParticleHole ph o := by
  intro hop ph
  have habs : ∀ j, |(![1, -1] : Fin 2 → ℝ) j| = 1 := by
    intro j
    fin_cases j <;> simp
  have hz : ∀ j : Fin 2, (fun _ => I : Fin 2 → ℂ) j = 1 ∨ (fun _ => I : Fin 2 → ℂ) j = I := fun _ => .inr rfl
  have hne : ∀ j, (![1, -1] : Fin 2 → ℝ) j ≠ 0 := fun j h0 => by have := habs j; rw [h0] at this; simp at this
  have d := phLead ![1, -1] (fun _ => I) (ph_norm hz) hne (fun i j _ => by simp only [habs]; exact le_rfl) (fun i j => by rw [habs, habs]; norm_num)
  have hσ : ∀ j : Fin 2, Equiv.swap (0 : Fin 2) 1 (Equiv.swap (0 : Fin 2) 1 j) = j := by decide
  have hr : Related ph true true (diagH 0) hop (diagH 0) hop := ph_related _ (by intro j; fin_cases j <;> simp [phT]) hσ
  obtain ⟨psi, hpsi⟩ := d.input (by norm_num)
  refine ⟨?_, hr, permMat_sq _ hσ, d.setup (by norm_num), psi, hpsi, fun junk => ?_⟩
  · ext i j
    fin_cases i <;> fin_cases j <;> simp [hop, phT]
  have hgap : SpeedGap e.velEps (diagH 0) hop := ph_gap_away (fun _ => rfl) d
  obtain ⟨o, ho⟩ := ph_ok (by norm_num) hz hne d e he hep h1 (fun j => by rw [habs]; linarith) hgap hpsi hr (.inl (permMat_sq _ hσ)) (fun _ => rfl)
    (by rw [(ph_count_I fun _ => rfl).1]) (by rw [(ph_count_I fun _ => rfl).2]) junk
  exact ⟨o, ho, C158_modes_partial (diagH_hermitian _) _ (exNum_ok d.svd_ok) (d.setup (by norm_num)) d.cut (by simp) e he hep (by linarith) hpsi (ph_sep hz e h1) (ph_trimSep hz e h1) hr hgap
    (ph_oneSpeed (ph_norm hz) habs d).away (ph_notMixed (fun _ => rfl) d).alone junk ho⟩

theorem exTr_sq : exTr * conjM exTr = -1 := by
  ext i j
  fin_cases i <;> fin_cases j <;> simp [exTr, conjM, Matrix.mul_apply, Fin.sum_univ_two]

theorem ph_count_1 : countAt (phLam fun _ : Fin n => (1 : ℂ)) 1 = n ∧ countAt (phLam fun _ : Fin n => (1 : ℂ)) (-1) = n := by
  have h1 : (1 : ℂ) ≠ -1 := by norm_num
  have h2 : (-1 : ℂ) ≠ 1 := by norm_num
  simp [ph_count, h1, h2]

theorem four_arg : (1 : ℂ).arg = 0 ∧ (-1 : ℂ).arg = Real.pi ∧ I.arg = Real.pi / 2 ∧ (-I).arg = -(Real.pi / 2) :=
  ⟨Complex.arg_one, Complex.arg_neg_one, Complex.arg_I, Complex.arg_neg_I⟩

/-- C158: two chains with imaginary hoppings and `P^2 = -1`: the modes are at the momenta `0` and `-π`. -/
theorem C158_example_minus (e : ModeNum 2) (he : e.Ok) (hep : e.PhsOk) (h1 : e.eps ≤ 1 / 10) (h2 : e.velEps ≤ 1 / 10) :
    let hop : Matrix (Fin 2) (Fin 2) ℂ := diagonal (phT (fun _ => 1) fun _ => 1)
    hop = !![I, 0; 0, I] ∧ Related exTr true true (diagH 0) hop (diagH 0) hop ∧ exTr * conjM exTr = -1 ∧
    setupLinsys (exNum (diagSvd (phT (fun _ => 1) fun _ => 1))) (diagH 0) hop none = .ok (diagL 0 (phT (fun _ => 1) fun _ => 1)) ∧
    ∃ psi, PropInput (diagL 0 (phT (fun _ => 1) fun _ => 1)) (phLam fun _ : Fin 2 => 1) psi ∧ ∀ junk, ∃ o,
      makeProperModes e ⟨none, some exTr, none⟩ junk (phLam fun _ : Fin 2 => 1) psi (diagL 0 (phT (fun _ => 1) fun _ => 1)).extract = .ok o ∧
      ProperSpec (diagH 0) hop (diagL 0 (phT (fun _ => 1) fun _ => 1)) o ∧ ParticleHole exTr o := by
  intro hop
  have habs : ∀ j : Fin 2, |(fun _ => 1 : Fin 2 → ℝ) j| = 1 := fun j => abs_one
  have hz : ∀ j : Fin 2, (fun _ => 1 : Fin 2 → ℂ) j = 1 ∨ (fun _ => 1 : Fin 2 → ℂ) j = I := fun _ => .inl rfl
  have hne : ∀ j : Fin 2, (fun _ => 1 : Fin 2 → ℝ) j ≠ 0 := fun j => one_ne_zero
  have d := phLead (n := 2) (fun _ => 1) (fun _ => 1) (ph_norm hz) hne (fun i j _ => by simp only [habs]; exact le_rfl) (fun i j => by norm_num)
  have hhop : hop = !![I, 0; 0, I] := by
    ext i j
    fin_cases i <;> fin_cases j <;> simp [hop, phT]
  have hr : Related exTr true true (diagH 0) hop (diagH 0) hop := by
    refine ⟨exTr_left, exTr_right, by rw [diagH_zero]; simp, ?_⟩
    rw [diagonal_map (map_zero _)]
    ext i j
    rw [diagonal_mul, Matrix.smul_apply, mul_diagonal]
    fin_cases i <;> fin_cases j <;> simp [exTr, cj, phT]
  obtain ⟨psi, hpsi⟩ := d.input (by norm_num)
  refine ⟨hhop, hr, exTr_sq, d.setup (by norm_num), psi, hpsi, fun junk => ?_⟩
  have hgap : SpeedGap e.velEps (diagH 0) hop := ph_gap (ph_norm hz) one_pos habs (by linarith) d
  obtain ⟨o, ho⟩ := ph_ok (by norm_num) hz hne d e he hep h1 (fun j => by simp only [abs_one]; linarith) hgap hpsi hr (.inr exTr_sq) (fun _ => rfl)
    (by rw [ph_count_1.1]) (by rw [ph_count_1.2]) junk
  refine ⟨o, ho, C158_modes_partial (diagH_hermitian _) _ (exNum_ok d.svd_ok) (d.setup (by norm_num)) d.cut (by simp) e he hep (by linarith) hpsi (ph_sep hz e h1) (ph_trimSep hz e h1) hr hgap
    (ph_oneSpeed (ph_norm hz) habs d).away (.inr fun μ ψ hμ hψ h0 => ?_) junk ho⟩
  obtain ⟨j, hj⟩ := Function.ne_iff.mp h0
  obtain ⟨i, _, h8⟩ := (d.on_iff hμ ψ).mp hψ j hj
  rw [← h8]
  refine Fin.addCases (fun j => ?_) (fun j => ?_) i <;> simp only [ph_eqs] <;> simp

/-! ### Counterexamples -/

/-- C158: one chain with an imaginary hopping: there is one mode at momentum `0`, and an error is raised although `P^2 = 1`. -/
theorem C158_counterexample_odd (e : ModeNum 1) (he : e.Ok) (hep : e.PhsOk) (h1 : e.eps ≤ 1 / 10) (h2 : e.velEps ≤ 1 / 10) :
    let hop : Matrix (Fin 1) (Fin 1) ℂ := diagonal (phT (fun _ => 1) fun _ => 1)
    hop = !![I] ∧ Related 1 true true (diagH 0) hop (diagH 0) hop ∧ (1 : Matrix (Fin 1) (Fin 1) ℂ) * conjM 1 = 1 ∧
    setupLinsys (exNum (diagSvd (phT (fun _ => 1) fun _ => 1))) (diagH 0) hop none = .ok (diagL 0 (phT (fun _ => 1) fun _ => 1)) ∧
    ∃ psi, PropInput (diagL 0 (phT (fun _ => 1) fun _ => 1)) (phLam fun _ : Fin 1 => 1) psi ∧ ∀ junk,
      (∃ o, makeProperModes e ⟨none, none, none⟩ junk (phLam fun _ : Fin 1 => 1) psi (diagL 0 (phT (fun _ => 1) fun _ => 1)).extract = .ok o) ∧
      makeProperModes e ⟨none, some 1, none⟩ junk (phLam fun _ : Fin 1 => 1) psi (diagL 0 (phT (fun _ => 1) fun _ => 1)).extract = .error .assertionError := by
  intro hop
  have habs : ∀ j : Fin 1, |(fun _ => 1 : Fin 1 → ℝ) j| = 1 := fun j => abs_one
  have hz : ∀ j : Fin 1, (fun _ => 1 : Fin 1 → ℂ) j = 1 ∨ (fun _ => 1 : Fin 1 → ℂ) j = I := fun _ => .inl rfl
  have hne : ∀ j : Fin 1, (fun _ => 1 : Fin 1 → ℝ) j ≠ 0 := fun j => one_ne_zero
  have d := phLead (n := 1) (fun _ => 1) (fun _ => 1) (ph_norm hz) hne (fun i j _ => by simp only [habs]; exact le_rfl) (fun i j => by norm_num)
  have hhop : hop = !![I] := by
    ext i j
    fin_cases i <;> fin_cases j <;> simp [hop, phT]
  have hr : Related 1 true true (diagH 0) hop (diagH 0) hop := by
    refine ⟨by simp, by simp, by rw [diagH_zero]; simp, ?_⟩
    rw [diagonal_map (map_zero _), Matrix.mul_one, Matrix.one_mul]
    ext i j
    fin_cases i <;> fin_cases j <;> simp [hhop, cj, phT]
  have hsq : (1 : Matrix (Fin 1) (Fin 1) ℂ) * conjM 1 = 1 := by
    ext i j
    fin_cases i <;> fin_cases j <;> simp [conjM]
  obtain ⟨psi, hpsi⟩ := d.input (by norm_num)
  refine ⟨hhop, hr, hsq, d.setup (by norm_num), psi, hpsi, fun junk => ⟨?_, ?_⟩⟩
  · refine d.ok (by norm_num) hpsi e he (ph_sep hz e h1) ?_ (ph_card (ph_norm hz) hne) junk
    intro i
    rw [ph_speed (ph_norm hz) habs]
    linarith
  · refine (C158_error _ (exNum_ok d.svd_ok) (d.setup (by norm_num)) d.cut (by simp) e he hep (by linarith) hpsi (ph_sep hz e h1) (ph_trimSep hz e h1) hr (.inl hsq)
      (ph_gap (ph_norm hz) one_pos habs (by linarith) d) (fun _ => rfl) junk).2.mpr (.inl ?_)
    rw [ph_count_1.1]

/-- The permutation of four chains -/
def exPerm : Equiv.Perm (Fin 4) := (Equiv.swap (0 : Fin 4) 1).trans (Equiv.swap 2 3)

theorem exPerm_eq : ∀ j, exPerm j = ![1, 0, 3, 2] j := by decide

/-- Two modes with disjoint supports cannot be partners. -/
theorem disjoint_waves {r : ℕ} {o : Proper n r N} {σ : Equiv.Perm (Fin n)} {i j : Fin N} (hv : o.velocities i ≠ 0)
    (h : ((Real.sqrt |o.velocities i| : ℝ) : ℂ) • o.waveFunctions.col i = ((Real.sqrt |o.velocities j| : ℝ) : ℂ) • (permMat σ *ᵥ star (o.waveFunctions.col j)))
    {c : Fin n} (h1 : o.waveFunctions c i ≠ 0) (h2 : o.waveFunctions (σ c) j = 0) : False := by
  have h3 := congrFun h c
  rw [Pi.smul_apply, Pi.smul_apply, permMat_mulVec, Pi.star_apply] at h3
  have h4 : o.waveFunctions.col j (σ c) = 0 := h2
  rw [h4, star_zero, smul_zero, smul_eq_mul, mul_eq_zero] at h3
  rcases h3 with h3 | h3
  · exact Complex.ofReal_ne_zero.mpr (Real.sqrt_pos.mpr (abs_pos.mpr hv)).ne' h3
  · exact h1 h3

/-- C158: four chains, with two different speeds at the same momentum: the result is wrong. -/
theorem C158_counterexample_speed (e : ModeNum 4) (he : e.Ok) (hep : e.PhsOk) (h1 : e.eps ≤ 1 / 10) (h2 : e.velEps ≤ 1 / 10) :
    let t : Fin 4 → ℂ := phT ![3, -3, 2, -2] fun _ => I
    let hop : Matrix (Fin 4) (Fin 4) ℂ := diagonal t
    t = ![3, -3, 2, -2] ∧ Related (permMat exPerm) true true (diagH 0) hop (diagH 0) hop ∧ permMat exPerm * conjM (permMat exPerm) = 1 ∧ PiAlone (diagH 0) hop ∧
    setupLinsys (exNum (diagSvd t)) (diagH 0) hop none = .ok (diagL 0 t) ∧
    ∃ psi, PropInput (diagL 0 t) (phLam fun _ : Fin 4 => I) psi ∧ ∀ junk, ∃ o,
      makeProperModes e ⟨none, some (permMat exPerm), none⟩ junk (phLam fun _ : Fin 4 => I) psi (diagL 0 t).extract = .ok o ∧ ¬ProperSpec (diagH 0) hop (diagL 0 t) o := by
  intro t hop
  have habs : ∀ j, |(![3, -3, 2, -2] : Fin 4 → ℝ) j| = (![3, 3, 2, 2] : Fin 4 → ℝ) j := by
    intro j
    fin_cases j <;> simp
  have hz : ∀ j : Fin 4, (fun _ => I : Fin 4 → ℂ) j = 1 ∨ (fun _ => I : Fin 4 → ℂ) j = I := fun _ => .inr rfl
  have hne : ∀ j, (![3, -3, 2, -2] : Fin 4 → ℝ) j ≠ 0 := by
    intro j
    fin_cases j <;> simp
  have d := phLead ![3, -3, 2, -2] (fun _ => I) (ph_norm hz) hne (fun i j hij => by
    simp only [habs]
    fin_cases i <;> fin_cases j <;> simp at hij ⊢ <;> norm_num) (fun i j => by
    rw [habs, habs]
    fin_cases i <;> fin_cases j <;> norm_num)
  have hσ : ∀ j, exPerm (exPerm j) = j := by decide
  have hr : Related (permMat exPerm) true true (diagH 0) hop (diagH 0) hop := ph_related _ (by
    intro j
    rw [exPerm_eq]
    fin_cases j <;> simp [phT, Complex.conj_ofNat]) hσ
  have hsq := permMat_sq exPerm hσ
  have hpi : PiAlone (diagH 0) hop := (ph_notMixed (fun _ => rfl) d).alone
  obtain ⟨psi, hpsi⟩ := d.input (by norm_num)
  refine ⟨?_, hr, hsq, hpi, d.setup (by norm_num), psi, hpsi, fun junk => ?_⟩
  · ext j
    fin_cases j <;> simp [t, phT, mul_assoc]
  have hgap : SpeedGap e.velEps (diagH 0) hop := ph_gap_away (fun _ => rfl) d
  obtain ⟨o, ho⟩ := ph_ok (by norm_num) hz hne d e he hep h1 (fun j => by rw [habs]; fin_cases j <;> norm_num <;> linarith) hgap hpsi hr (.inl hsq) (fun _ => rfl)
    (by rw [(ph_count_I fun _ => rfl).1]) (by rw [(ph_count_I fun _ => rfl).2]) junk
  refine ⟨o, ho, fun hp => ?_⟩
  obtain ⟨u, hf⟩ := setup_faithful _ (exNum_ok d.svd_ok) (d.setup (by norm_num)) d.cut (by simp)
  obtain ⟨τ, hτ⟩ := d.proper hf hp
  have hv := fun j => phT_vel (s := ![3, -3, 2, -2]) (ph_norm hz) j
  obtain ⟨k1, v1, ⟨c, n1⟩, s1⟩ := hτ (Fin.castAdd 4 1)
  obtain ⟨k3, v3, _, _⟩ := hτ (Fin.castAdd 4 3)
  obtain ⟨k4, v4, _, _⟩ := hτ (Fin.natAdd 4 0)
  obtain ⟨k6, v6, _, s6⟩ := hτ (Fin.natAdd 4 2)
  simp only [ph_eqs, cos_eqs, four_arg, neg_neg] at k1 k3 k4 k6
  rw [(ph_vel (ph_norm hz) _).1] at v1 v3
  rw [(ph_vel (ph_norm hz) _).2] at v4 v6
  have w1 : o.velocities (τ (Fin.castAdd 4 1)) = -6 := v1.trans (show 2 * (-3 : ℝ) = -6 by norm_num)
  have w3 : o.velocities (τ (Fin.castAdd 4 3)) = -4 := v3.trans (show 2 * (-2 : ℝ) = -4 by norm_num)
  have w4 : o.velocities (τ (Fin.natAdd 4 0)) = -6 := v4.trans (show -(2 * (3 : ℝ)) = -6 by norm_num)
  have w6 : o.velocities (τ (Fin.natAdd 4 2)) = -4 := v6.trans (show -(2 * (2 : ℝ)) = -4 by norm_num)
  have hpos := Real.pi_pos
  have hlt : ∀ i j : Fin 8, o.velocities i < 0 → o.velocities j < 0 → (o.momenta j < o.momenta i ∨ o.momenta j = o.momenta i ∧ o.velocities j < o.velocities i) → j < i := by
    intro i j q1 q2 q3
    by_contra q4
    rcases lt_or_eq_of_le (not_lt.mp q4) with q5 | q5
    · rcases hp.sorted _ _ q5 q1 q2 with q6 | q6 <;> rcases q3 with q7 | q7 <;> linarith [q6, q7]
    · rw [q5] at q3
      rcases q3 with q7 | q7 <;> linarith [q7]
  have o1 : τ (Fin.castAdd 4 1) < τ (Fin.castAdd 4 3) := hlt _ _ (by linarith) (by linarith) (.inr ⟨k1.trans k3.symm, by linarith⟩)
  have o2 : τ (Fin.castAdd 4 3) < τ (Fin.natAdd 4 0) := hlt _ _ (by linarith) (by linarith) (.inl (by rw [k3, k4]; linarith))
  have o3 : τ (Fin.natAdd 4 0) < τ (Fin.natAdd 4 2) := hlt _ _ (by linarith) (by linarith) (.inr ⟨k4.trans k6.symm, by linarith⟩)
  have p6 : 2 * (τ (Fin.natAdd 4 2)).val < 8 := (hp.halves _).mp (by linarith)
  have t1 : τ (Fin.castAdd 4 1) = (0 : Fin 8) := Fin.ext (show (τ (Fin.castAdd 4 1)).val = 0 by omega)
  have t6 : τ (Fin.natAdd 4 2) = (3 : Fin 8) := Fin.ext (show (τ (Fin.natAdd 4 2)).val = 3 by omega)
  rw [t1] at k1 w1 n1 s1
  rw [t6] at k6 w6 s6
  have hi3 : firstHalf 8 (3 : Fin 4) = (3 : Fin 8) := rfl
  have hi0 : firstHalf 8 (Fin.rev (3 : Fin 4)) = (0 : Fin 8) := rfl
  have hor := C158_order he _ psi _ junk ho (3 : Fin 4) (by rw [hi3, k6]; constructor <;> linarith [Real.two_le_pi]) (by
    rw [hi0, k1]
    rintro ⟨_, q2⟩
    linarith [he.eps])
  rw [hi3, hi0] at hor
  refine disjoint_waves (by rw [w1]; norm_num) hor n1 ?_
  by_contra h0
  have q1 := (s1 c n1).2
  have q2 := (s6 _ h0).2
  simp only [ph_eqs, cos_eqs] at q1 q2
  rw [(hv _).1, (hv _).1] at q1
  rw [(hv _).2, (hv _).2, exPerm_eq] at q2
  fin_cases c
  · change 2 * (3 : ℝ) = 2 * (-3) at q1
    norm_num at q1
  · change -(2 * (3 : ℝ)) = -(2 * 2) at q2
    norm_num at q2
  · change 2 * (2 : ℝ) = 2 * (-3) at q1
    norm_num at q1
  · change 2 * (-2 : ℝ) = 2 * (-3) at q1
    norm_num at q1

/-- Both kinds of chains -/
noncomputable def exZ : Fin 4 → ℂ := ![1, 1, I, I]

/-- C158: four chains with equal speeds, with modes at the momenta `-π`, `0` and `± π/2`: the result is wrong. -/
theorem C158_counterexample_pi (e : ModeNum 4) (he : e.Ok) (hep : e.PhsOk) (h1 : e.eps ≤ 1 / 10) (h2 : e.velEps ≤ 1 / 10) :
    let t : Fin 4 → ℂ := phT ![1, -1, 1, -1] exZ
    let hop : Matrix (Fin 4) (Fin 4) ℂ := diagonal t
    let ph := permMat (Equiv.swap (2 : Fin 4) 3)
    t = ![I, -I, 1, -1] ∧ Related ph true true (diagH 0) hop (diagH 0) hop ∧ ph * conjM ph = 1 ∧ OneSpeed (diagH 0) hop ∧
    setupLinsys (exNum (diagSvd t)) (diagH 0) hop none = .ok (diagL 0 t) ∧
    ∃ psi, PropInput (diagL 0 t) (phLam exZ) psi ∧ ∀ junk, ∃ o,
      makeProperModes e ⟨none, some ph, none⟩ junk (phLam exZ) psi (diagL 0 t).extract = .ok o ∧ ¬ProperSpec (diagH 0) hop (diagL 0 t) o := by
  intro t hop ph
  have habs : ∀ j, |(![1, -1, 1, -1] : Fin 4 → ℝ) j| = 1 := by
    intro j
    fin_cases j <;> simp
  have hz : ∀ j : Fin 4, exZ j = 1 ∨ exZ j = I := by
    intro j
    fin_cases j <;> simp [exZ]
  have hne : ∀ j, (![1, -1, 1, -1] : Fin 4 → ℝ) j ≠ 0 := by
    intro j
    fin_cases j <;> simp
  have d := phLead ![1, -1, 1, -1] exZ (ph_norm hz) hne (fun i j hij => by simp only [habs]; exact le_rfl) (fun i j => by rw [habs, habs]; norm_num)
  have hσ : ∀ j, Equiv.swap (2 : Fin 4) 3 (Equiv.swap (2 : Fin 4) 3 j) = j := by decide
  have hσ' : ∀ j, Equiv.swap (2 : Fin 4) 3 j = ![0, 1, 3, 2] j := by decide
  have hr : Related ph true true (diagH 0) hop (diagH 0) hop := ph_related _ (by
    intro j
    rw [hσ']
    fin_cases j <;> simp [phT, exZ]) hσ
  have hsq := permMat_sq (Equiv.swap (2 : Fin 4) 3) hσ
  obtain ⟨psi, hpsi⟩ := d.input (by norm_num)
  refine ⟨?_, hr, hsq, ph_oneSpeed (ph_norm hz) habs d, d.setup (by norm_num), psi, hpsi, fun junk => ?_⟩
  · ext j
    fin_cases j <;> simp [t, phT, exZ]
  have hgap : SpeedGap e.velEps (diagH 0) hop := ph_gap (ph_norm hz) one_pos habs (by linarith) d
  have i1 : (I : ℂ) ≠ 1 := fun h => by have := congrArg Complex.re h; norm_num at this
  have i2 : (I : ℂ) ≠ -1 := fun h => by have := congrArg Complex.re h; norm_num at this
  have i3 : -(I : ℂ) ≠ 1 := fun h => by have := congrArg Complex.re h; norm_num at this
  have i4 : -(I : ℂ) ≠ -1 := fun h => by have := congrArg Complex.re h; norm_num at this
  have i5 : (1 : ℂ) ≠ -1 := by norm_num
  have i6 : (-1 : ℂ) ≠ 1 := by norm_num
  have hc : countAt (phLam exZ) 1 = 2 ∧ countAt (phLam exZ) (-1) = 2 := by
    have c1 : (Finset.univ.filter fun j => exZ j = 1) = {0, 1} := by
      ext j
      rw [Finset.mem_filter]
      fin_cases j <;> simp [exZ, i1]
    have c2 : (Finset.univ.filter fun j => -exZ j = 1) = ∅ := by
      ext j
      rw [Finset.mem_filter]
      fin_cases j <;> simp [exZ, i3, i6]
    have c3 : (Finset.univ.filter fun j => exZ j = -1) = ∅ := by
      ext j
      rw [Finset.mem_filter]
      fin_cases j <;> simp [exZ, i2, i5]
    have c4 : (Finset.univ.filter fun j => -exZ j = -1) = {0, 1} := by
      ext j
      rw [Finset.mem_filter]
      fin_cases j <;> simp [exZ, i1]
    rw [ph_count, ph_count, c1, c2, c3, c4]
    exact ⟨rfl, rfl⟩
  obtain ⟨o, ho⟩ := ph_ok (by norm_num) hz hne d e he hep h1 (fun j => by rw [habs]; linarith) hgap hpsi hr (.inl hsq) (fun _ => rfl)
    (by rw [hc.1]) (by rw [hc.2]) junk
  refine ⟨o, ho, fun hp => ?_⟩
  obtain ⟨u, hf⟩ := setup_faithful _ (exNum_ok d.svd_ok) (d.setup (by norm_num)) d.cut (by simp)
  obtain ⟨τ, hτ⟩ := d.proper hf hp
  obtain ⟨k4, v4, ⟨c, n4⟩, s4⟩ := hτ (Fin.natAdd 4 0)
  obtain ⟨k3, v3, _, _⟩ := hτ (Fin.castAdd 4 3)
  obtain ⟨k1, v1, _, _⟩ := hτ (Fin.castAdd 4 1)
  obtain ⟨k6, v6, _, s6⟩ := hτ (Fin.natAdd 4 2)
  have z0 : exZ 0 = 1 := rfl
  have z1 : exZ 1 = 1 := rfl
  have z2 : exZ 2 = I := rfl
  have z3 : exZ 3 = I := rfl
  simp only [ph_eqs, cos_eqs, z0, z1, z2, z3, four_arg, neg_neg, neg_zero] at k1 k3 k4 k6
  rw [(ph_vel (ph_norm hz) _).1] at v1 v3
  rw [(ph_vel (ph_norm hz) _).2] at v4 v6
  have w1 : o.velocities (τ (Fin.castAdd 4 1)) = -2 := v1.trans (show 2 * (-1 : ℝ) = -2 by norm_num)
  have w3 : o.velocities (τ (Fin.castAdd 4 3)) = -2 := v3.trans (show 2 * (-1 : ℝ) = -2 by norm_num)
  have w4 : o.velocities (τ (Fin.natAdd 4 0)) = -2 := v4.trans (show -(2 * (1 : ℝ)) = -2 by norm_num)
  have w6 : o.velocities (τ (Fin.natAdd 4 2)) = -2 := v6.trans (show -(2 * (1 : ℝ)) = -2 by norm_num)
  have hpos := Real.pi_pos
  have hlt : ∀ i j : Fin 8, o.velocities i < 0 → o.velocities j < 0 → o.momenta j < o.momenta i → j < i := by
    intro i j q1 q2 q3
    by_contra q4
    rcases lt_or_eq_of_le (not_lt.mp q4) with q5 | q5
    · rcases hp.sorted _ _ q5 q1 q2 with q6 | q6 <;> linarith [q6, q3]
    · rw [q5] at q3
      linarith
  have o1 : τ (Fin.natAdd 4 0) < τ (Fin.castAdd 4 3) := hlt _ _ (by linarith) (by linarith) (by rw [k3, k4]; linarith)
  have o2 : τ (Fin.castAdd 4 3) < τ (Fin.castAdd 4 1) := hlt _ _ (by linarith) (by linarith) (by rw [k3, k1]; linarith)
  have o3 : τ (Fin.castAdd 4 1) < τ (Fin.natAdd 4 2) := hlt _ _ (by linarith) (by linarith) (by rw [k1, k6]; linarith)
  have p6 : 2 * (τ (Fin.natAdd 4 2)).val < 8 := (hp.halves _).mp (by linarith)
  have t4 : τ (Fin.natAdd 4 0) = (0 : Fin 8) := Fin.ext (show (τ (Fin.natAdd 4 0)).val = 0 by omega)
  have t6 : τ (Fin.natAdd 4 2) = (3 : Fin 8) := Fin.ext (show (τ (Fin.natAdd 4 2)).val = 3 by omega)
  rw [t4] at k4 w4 n4 s4
  rw [t6] at k6 w6 s6
  have hi3 : firstHalf 8 (3 : Fin 4) = (3 : Fin 8) := rfl
  have hi0 : firstHalf 8 (Fin.rev (3 : Fin 4)) = (0 : Fin 8) := rfl
  have hor := C158_order he _ psi _ junk ho (3 : Fin 4) (by rw [hi3, k6]; constructor <;> linarith [Real.two_le_pi]) (by
    rw [hi0, k4]
    rintro ⟨_, q2⟩
    linarith [he.eps])
  rw [hi3, hi0] at hor
  refine disjoint_waves (by rw [w4]; norm_num) hor n4 ?_
  -- the modes are in chains of different kinds
  have kind : ∀ (i : Fin (4 + 4)) (c : Fin 4), cosOrb 4 i = c → phLam exZ i = exZ c ∨ phLam exZ i = -exZ c := by
    intro i c hic
    rw [← hic]
    refine Fin.addCases (fun j => ?_) (fun j => ?_) i
    · exact .inl ((ph_eqs exZ j).1.trans (congrArg exZ (cos_eqs j).2.2.1.symm))
    · exact .inr ((ph_eqs exZ j).2.1.trans (congrArg (fun x => -exZ x) (cos_eqs j).2.2.2.symm))
  by_contra h0
  obtain ⟨⟨i, hi1, hi2⟩, _⟩ := s4 c n4
  obtain ⟨⟨j, hj1, hj2⟩, _⟩ := s6 _ h0
  have m1 := kind i c hi1
  have m2 := kind j _ hj1
  rw [hi2, (ph_eqs exZ 0).2.1, z0] at m1
  rw [hj2, (ph_eqs exZ 2).2.1, z2, hσ'] at m2
  have hc01 : c = 0 ∨ c = 1 := by
    fin_cases c
    · exact .inl rfl
    · exact .inr rfl
    · rcases m1 with m1 | m1
      · exact absurd m1.symm i2
      · exact absurd (neg_injective m1).symm i1
    · rcases m1 with m1 | m1
      · exact absurd m1.symm i2
      · exact absurd (neg_injective m1).symm i1
  rcases hc01 with rfl | rfl
  · rcases m2 with m2 | m2
    · exact i3 m2
    · exact i4 m2
  · rcases m2 with m2 | m2
    · exact i3 m2
    · exact i4 m2

/-! ### Particle-hole and time-reversal symmetry -/

/-- If `P T` squares to one, as is required by `DiscreteSymmetry`, the signs are determined by those of `P^2` and `T^2`. -/
theorem commute_sign {ph tr : Matrix (Fin n) (Fin n) ℂ} {η θ : ℂ} (hP : ph * conjM ph = η • (1 : Matrix (Fin n) (Fin n) ℂ)) (hT : tr * conjM tr = θ • (1 : Matrix (Fin n) (Fin n) ℂ))
    (hη : η = 1 ∨ η = -1) (hθ : θ = 1 ∨ θ = -1) (hC : (ph * conjM tr) * (ph * conjM tr) = 1) : tr * conjM ph = (η * θ) • (ph * conjM tr) := by
  have hη2 : η * η = 1 := by rcases hη with rfl | rfl <;> norm_num
  have hθ2 : θ * θ = 1 := by rcases hθ with rfl | rfl <;> norm_num
  have hP' : (η • ph) * conjM ph = 1 := by rw [Matrix.smul_mul, hP, smul_smul, hη2, one_smul]
  have hP'' : conjM ph * (η • ph) = 1 := mul_eq_one_comm.mp hP'
  have hT' : (θ • tr) * conjM tr = 1 := by rw [Matrix.smul_mul, hT, smul_smul, hθ2, one_smul]
  have hT'' : conjM tr * (θ • tr) = 1 := mul_eq_one_comm.mp hT'
  have h1 : ((θ • tr) * (η • conjM ph)) * (ph * conjM tr) = 1 := by
    have : (η • conjM ph) * ph = 1 := by rw [Matrix.smul_mul, ← Matrix.mul_smul]; exact hP''
    rw [Matrix.mul_assoc, ← Matrix.mul_assoc _ ph, this, Matrix.one_mul, hT']
  have h2 := congrArg (((θ • tr) * (η • conjM ph)) * ·) hC
  simp only [Matrix.mul_one] at h2
  rw [← Matrix.mul_assoc, h1, Matrix.one_mul, Matrix.smul_mul, Matrix.mul_smul, smul_smul] at h2
  rw [h2, smul_smul, show η * θ * (θ * η) = (η * η) * (θ * θ) by ring, hη2, hθ2, one_mul, one_smul]

section signs
variable {h hop : Matrix (Fin n) (Fin n) ℂ} {L : Linsys n}

/-- C159: for the symmetries accepted by `DiscreteSymmetry`, with `P^2 = η`, `T^2 = θ`, `(P T)^2 = 1`: the relations of the outgoing modes hold up to the signs `θ` and `η θ`. -/
theorem C159_signs (hh : h.IsHermitian) (en : Numerics n) (hen : en.Ok hop) {stab : Option (Option Bool × Bool)}
    (hL : setupLinsys en h hop stab = .ok L) (hc : CutExact en hop) (hst : ∀ s0, stab = some (s0, true) → NoInfinite h hop)
    (e : ModeNum n) (he : e.Ok) (hep : e.PhsOk) (he1 : e.eps ≤ 1) {N : ℕ} {lam : Fin N → ℂ} {psi : Matrix (Fin L.r ⊕ Fin L.r) (Fin N) ℂ} (hi : PropInput L lam psi)
    (hs : Separated e lam) (hts : TrimSep e lam) {ph tr : Matrix (Fin n) (Fin n) ℂ} (hr : Related ph true true h hop h hop) (hr' : Related tr true false h hop h hop)
    (hgap : SpeedGap e.velEps h hop) (h1 : OneSpeed h hop) (h2 : NotMixedPi h hop) (ch : Option (Matrix (Fin n) (Fin n) ℂ)) (junk : Fin N → ℝ) {o : Proper n L.r N}
    (ho : makeProperModes e ⟨some tr, some ph, ch⟩ junk lam psi L.extract = .ok o)
    {η θ : ℂ} (hP : ph * conjM ph = η • (1 : Matrix (Fin n) (Fin n) ℂ)) (hT : tr * conjM tr = θ • (1 : Matrix (Fin n) (Fin n) ℂ))
    (hη : η = 1 ∨ η = -1) (hθ : θ = 1 ∨ θ = -1) (hC : (ph * conjM tr) * (ph * conjM tr) = 1) : ParticleHoleOut ph θ (η * θ) o := by
  obtain ⟨_, _, _, h4⟩ := C159_modes_partial hh en hen hL hc hst e he hep he1 hi hs hts hr hr' hgap h1 h2 ch junk ho
  have hη2 : η * η = 1 := by rcases hη with rfl | rfl <;> norm_num
  have hθ2 : θ * θ = 1 := by rcases hθ with rfl | rfl <;> norm_num
  have h5 := h4 (η * θ) η (by linear_combination θ * θ * hη2 + hθ2) hη2 (commute_sign hP hT hη hθ hC) hP
  rwa [show η * θ * η = θ by linear_combination θ * hη2] at h5

/-- C159: for `P^2 = T^2 = (P T)^2 = 1`, all relations hold as they are documented. -/
theorem C159_bdi (hh : h.IsHermitian) (en : Numerics n) (hen : en.Ok hop) {stab : Option (Option Bool × Bool)}
    (hL : setupLinsys en h hop stab = .ok L) (hc : CutExact en hop) (hst : ∀ s0, stab = some (s0, true) → NoInfinite h hop)
    (e : ModeNum n) (he : e.Ok) (hep : e.PhsOk) (he1 : e.eps ≤ 1) {N : ℕ} {lam : Fin N → ℂ} {psi : Matrix (Fin L.r ⊕ Fin L.r) (Fin N) ℂ} (hi : PropInput L lam psi)
    (hs : Separated e lam) (hts : TrimSep e lam) {ph tr : Matrix (Fin n) (Fin n) ℂ} (hr : Related ph true true h hop h hop) (hr' : Related tr true false h hop h hop)
    (hgap : SpeedGap e.velEps h hop) (h1 : OneSpeed h hop) (h2 : NotMixedPi h hop) (ch : Option (Matrix (Fin n) (Fin n) ℂ)) (junk : Fin N → ℝ) {o : Proper n L.r N}
    (ho : makeProperModes e ⟨some tr, some ph, ch⟩ junk lam psi L.extract = .ok o)
    (hn : 0 < n) (hP : ph * conjM ph = 1) (hT : tr * conjM tr = 1) (hC : (ph * conjM tr) * (ph * conjM tr) = 1) : ProperSpec h hop L o ∧ TimeReversed tr o ∧ ParticleHole ph o := by
  obtain ⟨p1, p2, p3, _⟩ := C159_modes_partial hh en hen hL hc hst e he hep he1 hi hs hts hr hr' hgap h1 h2 ch junk ho
  have p4 := C159_signs hh en hen hL hc hst e he hep he1 hi hs hts hr hr' hgap h1 h2 ch junk ho (η := 1) (θ := 1) (by rw [hP, one_smul]) (by rw [hT, one_smul]) (.inl rfl) (.inl rfl) hC
  have hne : ph * conjM ph ≠ -1 := by
    intro h0
    have := congrFun (congrFun (hP.symm.trans h0) ⟨0, hn⟩) ⟨0, hn⟩
    simp at this
    norm_num at this
  refine ⟨p1, p2, ⟨p3.away, p3.away', ?_, ?_, ?_, fun h0 => absurd h0 hne⟩⟩
  · intro i h0
    obtain ⟨q1, q2, q3⟩ := p4.away i h0
    exact ⟨⟨by rw [q1, one_smul], q2⟩, q3⟩
  · intro i q1 q2
    -- the incoming partners
    have m : ∀ j, -Real.pi < o.momenta (secondHalf N j) → o.momenta (firstHalf N j) = -o.momenta (secondHalf N j) := by
      intro j hj
      rcases p2.momentum j with h3 | ⟨h3, _⟩
      · linarith
      · linarith
    have m1 := m i q1
    obtain ⟨_, m2⟩ := p3.away i (by linarith)
    rcases p2.momentum i.rev with h3 | ⟨_, h3⟩
    · rw [h3, m2, m1]
      linarith
    · exfalso
      linarith
  · intro _ i h0
    rcases lt_or_gt_of_ne (p1.nonzero i) with h3 | h3
    · exact p3.plus hP i h3 h0
    · have := p4.plus hP i h3 h0
      exact ⟨by rw [one_mul, one_smul] at this; exact this, rfl⟩

end signs

/-- C159: two chains with opposite hoppings, `P^2 = T^2 = 1` -/
theorem C159_example (e : ModeNum 2) (he : e.Ok) (hep : e.PhsOk) (h1 : e.eps ≤ 1 / 10) (h2 : e.velEps ≤ 1 / 10) :
    let hop : Matrix (Fin 2) (Fin 2) ℂ := diagonal (phT ![1, -1] fun _ => I)
    let ph := permMat (Equiv.swap (0 : Fin 2) 1)
    Related ph true true (diagH 0) hop (diagH 0) hop ∧ Related 1 true false (diagH 0) hop (diagH 0) hop ∧ ph * conjM ph = 1 ∧
    setupLinsys (exNum (diagSvd (phT ![1, -1] fun _ => I))) (diagH 0) hop none = .ok (diagL 0 (phT ![1, -1] fun _ => I)) ∧
    ∃ psi, PropInput (diagL 0 (phT ![1, -1] fun _ => I)) (phLam fun _ : Fin 2 => I) psi ∧ ∀ junk, ∃ o,
      makeProperModes e ⟨some 1, some ph, some ph⟩ junk (phLam fun _ : Fin 2 => I) psi (diagL 0 (phT ![1, -1] fun _ => I)).extract = .ok o ∧
      ProperSpec (diagH 0) hop (diagL 0 (phT ![1, -1] fun _ => I)) o ∧ TimeReversed 1 o ∧ ParticleHole ph o := by
  intro hop ph
  have habs : ∀ j, |(![1, -1] : Fin 2 → ℝ) j| = 1 := by
    intro j
    fin_cases j <;> simp
  have hz : ∀ j : Fin 2, (fun _ => I : Fin 2 → ℂ) j = 1 ∨ (fun _ => I : Fin 2 → ℂ) j = I := fun _ => .inr rfl
  have hne : ∀ j, (![1, -1] : Fin 2 → ℝ) j ≠ 0 := fun j h0 => by have := habs j; rw [h0] at this; simp at this
  have d := phLead ![1, -1] (fun _ => I) (ph_norm hz) hne (fun i j _ => by simp only [habs]; exact le_rfl) (fun i j => by rw [habs, habs]; norm_num)
  have hσ : ∀ j : Fin 2, Equiv.swap (0 : Fin 2) 1 (Equiv.swap (0 : Fin 2) 1 j) = j := by decide
  have hr : Related ph true true (diagH 0) hop (diagH 0) hop := ph_related _ (by intro j; fin_cases j <;> simp [phT]) hσ
  have hr' : Related 1 true false (diagH 0) hop (diagH 0) hop := by
    refine ⟨by simp, by simp, by rw [diagH_zero]; simp, ?_⟩
    rw [diagonal_map (map_zero _), Matrix.mul_one, Matrix.one_mul]
    ext i j
    fin_cases i <;> fin_cases j <;> simp [hop, cj, phT]
  have hsq : ph * conjM ph = 1 := permMat_sq _ hσ
  obtain ⟨psi, hpsi⟩ := d.input (by norm_num)
  refine ⟨hr, hr', hsq, d.setup (by norm_num), psi, hpsi, fun junk => ?_⟩
  have hgap : SpeedGap e.velEps (diagH 0) hop := ph_gap_away (fun _ => rfl) d
  obtain ⟨o, ho⟩ := ph_ok (by norm_num) hz hne d e he hep h1 (fun j => by rw [habs]; linarith) hgap hpsi hr (.inl hsq) (tr := some 1) (ch := some ph) (fun h0 => by cases h0)
    (by rw [(ph_count_I fun _ => rfl).1]) (by rw [(ph_count_I fun _ => rfl).2]) junk
  refine ⟨o, ho, C159_bdi (diagH_hermitian _) _ (exNum_ok d.svd_ok) (d.setup (by norm_num)) d.cut (by simp) e he hep (by linarith) hpsi (ph_sep hz e h1) (ph_trimSep hz e h1) hr hr' hgap
    (ph_oneSpeed (ph_norm hz) habs d) (ph_notMixed (fun _ => rfl) d) _ junk ho (by norm_num) hsq (by rw [conjM_one, Matrix.one_mul]) ?_⟩
  rw [conjM_one, Matrix.mul_one]
  have : conjM ph = ph := permMat_conj _
  rw [this] at hsq
  exact hsq

/-- A time-reversal symmetry with `T^2 = -1` -/
noncomputable def exT4 : Matrix (Fin 4) (Fin 4) ℂ := !![0, 1, 0, 0; -1, 0, 0, 0; 0, 0, 0, -1; 0, 0, 1, 0]

/-- The permutation of four chains in pairs -/
def exPerm2 : Equiv.Perm (Fin 4) := (Equiv.swap (0 : Fin 4) 2).trans (Equiv.swap 1 3)

theorem exPerm2_eq : ∀ j, exPerm2 j = ![2, 3, 0, 1] j := by decide

theorem exT4_conj : conjM exT4 = exT4 := by
  ext i j
  fin_cases i <;> fin_cases j <;> simp [conjM, exT4]

theorem exT4_sq : exT4 * exT4 = -1 := by
  ext i j
  fin_cases i <;> fin_cases j <;> simp [exT4, Matrix.mul_apply, Fin.sum_univ_four]

theorem exT4_star : exT4ᴴ = -exT4 := by
  ext i j
  fin_cases i <;> fin_cases j <;> simp [exT4]

theorem exPerm2_mat : permMat exPerm2 = !![0, 0, 1, 0; 0, 0, 0, 1; 1, 0, 0, 0; 0, 1, 0, 0] := by
  ext i j
  simp only [permMat, submatrix_apply, id_eq, Matrix.one_apply, exPerm2_eq]
  fin_cases i <;> fin_cases j <;> simp

theorem exPT_sq : (permMat exPerm2 * conjM exT4) * (permMat exPerm2 * conjM exT4) = 1 := by
  rw [exT4_conj, exPerm2_mat]
  have : (!![0, 0, 1, 0; 0, 0, 0, 1; 1, 0, 0, 0; 0, 1, 0, 0] : Matrix (Fin 4) (Fin 4) ℂ) * exT4 = !![0, 0, 0, -1; 0, 0, 1, 0; 0, 1, 0, 0; -1, 0, 0, 0] := by
    ext i j
    fin_cases i <;> fin_cases j <;> simp [exT4, Matrix.mul_apply, Fin.sum_univ_four]
  rw [this]
  ext i j
  fin_cases i <;> fin_cases j <;> simp [Matrix.mul_apply, Fin.sum_univ_four]

/-- C159: four chains with `P^2 = 1` and `T^2 = -1`: no outgoing mode with a positive momentum has the documented partner. -/
theorem C159_counterexample (e : ModeNum 4) (he : e.Ok) (hep : e.PhsOk) (h1 : e.eps ≤ 1 / 10) (h2 : e.velEps ≤ 1 / 10) :
    let t : Fin 4 → ℂ := phT ![1, 1, -1, -1] fun _ => I
    let hop : Matrix (Fin 4) (Fin 4) ℂ := diagonal t
    let ph := permMat exPerm2
    t = ![1, 1, -1, -1] ∧ Related ph true true (diagH 0) hop (diagH 0) hop ∧ Related exT4 true false (diagH 0) hop (diagH 0) hop ∧
    ph * conjM ph = 1 ∧ exT4 * conjM exT4 = -1 ∧ (ph * conjM exT4) * (ph * conjM exT4) = 1 ∧ OneSpeed (diagH 0) hop ∧ NotMixedPi (diagH 0) hop ∧
    setupLinsys (exNum (diagSvd t)) (diagH 0) hop none = .ok (diagL 0 t) ∧
    ∃ psi, PropInput (diagL 0 t) (phLam fun _ : Fin 4 => I) psi ∧ ∀ junk, ∃ o,
      makeProperModes e ⟨some exT4, some ph, some (ph * conjM exT4)⟩ junk (phLam fun _ : Fin 4 => I) psi (diagL 0 t).extract = .ok o ∧
      (∃ i, 0 < o.velocities i ∧ 0 < o.momenta i) ∧
      ∀ i j, 0 < o.velocities i → 0 < o.momenta i → o.momenta j = -o.momenta i → ¬PhPartner ph o i j := by
  intro t hop ph
  have habs : ∀ j, |(![1, 1, -1, -1] : Fin 4 → ℝ) j| = 1 := by
    intro j
    fin_cases j <;> simp
  have hz : ∀ j : Fin 4, (fun _ => I : Fin 4 → ℂ) j = 1 ∨ (fun _ => I : Fin 4 → ℂ) j = I := fun _ => .inr rfl
  have hne : ∀ j, (![1, 1, -1, -1] : Fin 4 → ℝ) j ≠ 0 := by
    intro j
    fin_cases j <;> simp
  have d := phLead ![1, 1, -1, -1] (fun _ => I) (ph_norm hz) hne (fun i j _ => by simp only [habs]; exact le_rfl) (fun i j => by rw [habs, habs]; norm_num)
  have hσ : ∀ j, exPerm2 (exPerm2 j) = j := by decide
  have ht : t = ![1, 1, -1, -1] := by
    ext j
    fin_cases j <;> simp [t, phT]
  have hr : Related ph true true (diagH 0) hop (diagH 0) hop := ph_related _ (by
    intro j
    rw [exPerm2_eq]
    fin_cases j <;> simp [phT]) hσ
  have hr' : Related exT4 true false (diagH 0) hop (diagH 0) hop := by
    refine ⟨by rw [exT4_star, Matrix.neg_mul, exT4_sq, neg_neg], by rw [exT4_star, Matrix.mul_neg, exT4_sq, neg_neg], by rw [diagH_zero]; simp, ?_⟩
    have : hop = diagonal ![1, 1, -1, -1] := by rw [← ht]
    rw [this, diagonal_map (map_zero _)]
    ext i j
    rw [diagonal_mul, Matrix.smul_apply, mul_diagonal]
    fin_cases i <;> fin_cases j <;> simp [exT4, cj]
  have hsq : ph * conjM ph = 1 := permMat_sq _ hσ
  have hT : exT4 * conjM exT4 = -1 := by rw [exT4_conj, exT4_sq]
  have hone : OneSpeed (diagH 0) hop := ph_oneSpeed (ph_norm hz) habs d
  have hpi : NotMixedPi (diagH 0) hop := ph_notMixed (fun _ => rfl) d
  obtain ⟨psi, hpsi⟩ := d.input (by norm_num)
  refine ⟨ht, hr, hr', hsq, hT, exPT_sq, hone, hpi, d.setup (by norm_num), psi, hpsi, fun junk => ?_⟩
  have hgap : SpeedGap e.velEps (diagH 0) hop := ph_gap_away (fun _ => rfl) d
  obtain ⟨o, ho⟩ := ph_ok (by norm_num) hz hne d e he hep h1 (fun j => by rw [habs]; linarith) hgap hpsi hr (.inl hsq) (tr := some exT4) (ch := some (ph * conjM exT4)) (fun h0 => by cases h0)
    (by rw [(ph_count_I fun _ => rfl).1]) (by rw [(ph_count_I fun _ => rfl).2]) junk
  obtain ⟨hp, _, _, _⟩ := C159_modes_partial (diagH_hermitian _) _ (exNum_ok d.svd_ok) (d.setup (by norm_num)) d.cut (by simp) e he hep (by linarith) hpsi (ph_sep hz e h1)
    (ph_trimSep hz e h1) hr hr' hgap hone hpi _ junk ho
  have hout := C159_signs (diagH_hermitian _) _ (exNum_ok d.svd_ok) (d.setup (by norm_num)) d.cut (by simp) e he hep (by linarith) hpsi (ph_sep hz e h1)
    (ph_trimSep hz e h1) hr hr' hgap hone hpi _ junk ho (η := 1) (θ := -1) (by rw [hsq, one_smul]) (by rw [hT, neg_one_smul]) (.inl rfl) (.inr rfl) exPT_sq
  obtain ⟨u, hf⟩ := setup_faithful _ (exNum_ok d.svd_ok) (d.setup (by norm_num)) d.cut (by simp)
  obtain ⟨τ, hτ⟩ := d.proper hf hp
  refine ⟨o, ho, ⟨τ (Fin.natAdd 4 2), ?_, ?_⟩, ?_⟩
  · rw [(hτ _).2.1, (ph_vel (ph_norm hz) _).2]
    show 0 < -(2 * (-1 : ℝ))
    norm_num
  · rw [(hτ _).1, (ph_eqs _ _).2.1, four_arg.2.2.2, neg_neg]
    linarith [Real.pi_pos]
  · intro i j hv hk hkj hpar
    have hi : ¬2 * i.val < 8 := fun h0 => by
      have := (hp.halves i).mpr h0
      linarith
    obtain ⟨i, rfl⟩ : ∃ i', secondHalf 8 i' = i := secondHalf_surj (by norm_num) hi
    obtain ⟨h5, _, h6⟩ := hout.away i hk
    have h7 : o.waveFunctions.col (secondHalf 8 i.rev) = -o.waveFunctions.col j := by rw [h5, hpar.wave, neg_one_smul]
    have h8 := hp.orthogonal j (secondHalf 8 i.rev) (hkj.trans h6.symm)
    rw [h7, dotProduct_neg, hp.orthogonal j j rfl, if_pos rfl] at h8
    have h9 : 0 < 1 / |o.velocities j| := one_div_pos.mpr (abs_pos.mpr (hp.nonzero j))
    split at h8
    · have : -(1 / |o.velocities j|) = 1 / |o.velocities j| := by exact_mod_cast h8
      linarith
    · have : -(1 / |o.velocities j|) = 0 := by exact_mod_cast h8
      linarith

/-- The contracts of the numerical routines can be met. -/
example : let e := exactNumP 2 (1 / 10) (1 / 10)
    e.Ok ∧ e.PhsOk ∧ e.eps ≤ 1 / 10 ∧ e.velEps ≤ 1 / 10 :=
  ⟨exactNumP_ok 2 (by norm_num) (by norm_num), exactNumP_phs 2, le_rfl, le_rfl⟩

end Kwant.Leads
