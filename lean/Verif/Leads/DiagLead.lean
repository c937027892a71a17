import Verif.Leads.TimeRev
import Verif.Leads.ProperEx

/-!
Uncoupled chains: leads with diagonal matrices, for examples and counterexamples.
-/

set_option linter.unusedSectionVars false

namespace Kwant.Leads
open Matrix Complex

variable {n N : ℕ}

/-- The on-site Hamiltonian of uncoupled chains with the energies `a j` -/
noncomputable def diagH (a : Fin n → ℝ) : Matrix (Fin n) (Fin n) ℂ := diagonal fun j => (a j : ℂ)

/-- The velocity of the Bloch function of the `j`-th chain -/
noncomputable def diagVel (t : Fin n → ℂ) (j : Fin n) (μ : ℂ) : ℝ := 2 * (μ * t j).im

/-- The Bloch functions of the chains are those of the chains `orb i` with the phase factors `lam i`. -/
structure DiagLead (a : Fin n → ℝ) (t : Fin n → ℂ) (lam : Fin N → ℂ) (orb : Fin N → Fin n) : Prop where
  unit : ∀ i, ‖lam i‖ = 1
  on : ∀ i, (a (orb i) : ℂ) + lam i * t (orb i) + (lam i)⁻¹ * (starRingEnd ℂ) (t (orb i)) = 0
  inj : ∀ i j, lam i = lam j → orb i = orb j → i = j
  all : ∀ j μ, ‖μ‖ = 1 → (a j : ℂ) + μ * t j + μ⁻¹ * (starRingEnd ℂ) (t j) = 0 → ∃ i, orb i = j ∧ lam i = μ
  desc : Antitone fun j => ‖t j‖
  pos : ∀ i j, ‖t i‖ < 2 * ‖t j‖

noncomputable def diagSvd (t : Fin n → ℂ) : Svd n := ⟨diagonal fun j => t j / (‖t j‖ : ℂ), fun j => ‖t j‖, 1⟩

theorem diagH_hermitian (a : Fin n → ℝ) : (diagH a).IsHermitian := by
  rw [Matrix.IsHermitian, diagH, diagonal_conjTranspose]
  congr 1
  ext j
  simp

theorem diag_bloch (a : Fin n → ℝ) (t : Fin n → ℂ) {μ : ℂ} (hμ : μ ≠ 0) (ψ : Fin n → ℂ) :
    IsBloch (diagH a) (diagonal t) μ ψ ↔ ∀ j, ((a j : ℂ) + μ * t j + μ⁻¹ * (starRingEnd ℂ) (t j)) * ψ j = 0 := by
  rw [isBloch_iff _ _ hμ, funext_iff, diagonal_conjTranspose]
  refine forall_congr' fun j => ?_
  rw [diagH, Pi.add_apply, Pi.add_apply, Pi.smul_apply, Pi.smul_apply, mulVec_diagonal, mulVec_diagonal, mulVec_diagonal]
  simp only [smul_eq_mul, Pi.zero_apply, Pi.star_apply, star_def]
  rw [show (a j : ℂ) * ψ j + μ * (t j * ψ j) + μ⁻¹ * ((starRingEnd ℂ) (t j) * ψ j) = ((a j : ℂ) + μ * t j + μ⁻¹ * (starRingEnd ℂ) (t j)) * ψ j by ring]

theorem diag_velMu (t : Fin n → ℂ) (μ : ℂ) : velMu (diagonal t) μ = diagonal fun j => (diagVel t j μ : ℂ) := by
  rw [velMu, ← diagonal_smul, diagonal_conjTranspose, diagonal_add]
  congr 1
  ext j
  simp only [Pi.smul_apply, Pi.star_apply, smul_eq_mul, star_def, diagVel]
  apply Complex.ext
  · simp
    ring
  · simp

/-- A state of velocity `w` is a superposition of chains with this velocity. -/
theorem diag_velState {a : Fin n → ℝ} {t : Fin n → ℂ} {μ : ℂ} (hμ : ‖μ‖ = 1) {w : ℝ} {ψ : Fin n → ℂ} : VelState (diagH a) (diagonal t) μ w ψ ↔
    IsBloch (diagH a) (diagonal t) μ ψ ∧ ∀ j, ψ j ≠ 0 → diagVel t j μ = w := by
  have hμ0 := unit_ne hμ
  refine and_congr_right fun hb => ?_
  constructor
  · intro h1 j hj
    have h2 := h1 (Pi.single j 1) ((diag_bloch a t hμ0 _).mpr fun i => by
      by_cases hij : i = j
      · subst hij
        have := (diag_bloch a t hμ0 _).mp hb i
        rw [(mul_eq_zero.mp this).resolve_right hj, zero_mul]
      · rw [Pi.single_apply, if_neg hij, mul_zero])
    rw [diag_velMu] at h2
    have hs : star (Pi.single j (1 : ℂ) : Fin n → ℂ) = Pi.single j 1 := by
      rw [← Pi.single_star, star_one]
    rw [hs, single_dotProduct, one_mul, mulVec_diagonal, single_dotProduct, one_mul] at h2
    exact_mod_cast mul_right_cancel₀ hj h2
  · intro h1 φ _
    rw [diag_velMu]
    have : (diagonal fun j => (diagVel t j μ : ℂ)) *ᵥ ψ = (w : ℂ) • ψ := by
      ext j
      rw [mulVec_diagonal, Pi.smul_apply, smul_eq_mul]
      by_cases hj : ψ j = 0
      · rw [hj, mul_zero, mul_zero]
      · rw [h1 j hj]
    rw [this, dotProduct_smul, smul_eq_mul]

variable {a : Fin n → ℝ} {t : Fin n → ℂ} {lam : Fin N → ℂ} {orb : Fin N → Fin n}

namespace DiagLead
variable (d : DiagLead a t lam orb)
include d

theorem t_pos (j : Fin n) : 0 < ‖t j‖ := by
  have := d.pos j j
  linarith

theorem svd_ok : SvdOk (diagonal t) (diagSvd t) := by
  refine ⟨?_, ?_, by simp [diagSvd], fun i => norm_nonneg _, d.desc⟩
  · rw [diagSvd, Matrix.mul_one, diagonal_mul_diagonal]
    congr 1
    ext j
    rw [div_mul_cancel₀]
    exact_mod_cast (d.t_pos j).ne'
  · rw [diagSvd, diagonal_conjTranspose, diagonal_mul_diagonal, ← diagonal_one]
    congr 1
    ext j
    have h1 : (‖t j‖ : ℂ) ≠ 0 := by exact_mod_cast (d.t_pos j).ne'
    simp only [Pi.star_apply, star_def, map_div₀, Complex.conj_ofReal]
    rw [div_mul_div_comm, div_eq_one_iff_eq (mul_ne_zero h1 h1), mul_comm, Complex.mul_conj, Complex.normSq_eq_norm_sq]
    push_cast
    ring

theorem cut : CutExact (exNum (diagSvd t)) (diagonal t) := by
  intro i hi
  exfalso
  have := d.pos ⟨0, i.pos⟩ i
  simp only [exNum, diagSvd] at hi
  linarith

theorem setup (hn : 0 < n) : setupLinsys (exNum (diagSvd t)) (diagH a) (diagonal t) none = .ok (linsysReg (exNum (diagSvd t)) (diagH a) (diagonal t)) := by
  rw [setupLinsys, if_neg]
  · dsimp only
    rw [if_pos]
    refine ⟨?_, rfl⟩
    have : (Finset.univ.filter fun i : Fin n => (diagSvd t).s i > (exNum (diagSvd t)).eps * (diagSvd t).s ⟨0, i.pos⟩) = Finset.univ := by
      ext i
      have := d.pos ⟨0, i.pos⟩ i
      simp only [exNum, diagSvd, Finset.mem_filter, Finset.mem_univ, true_and, iff_true, gt_iff_lt]
      linarith
    change nNonsing (exNum (diagSvd t)) (diagSvd t).s = n
    rw [nNonsing, this, Finset.card_univ, Fintype.card_fin]
  · intro h0
    have := congrFun (congrFun h0 ⟨0, hn⟩) ⟨0, hn⟩
    rw [diagonal_apply_eq] at this
    have h1 := d.t_pos ⟨0, hn⟩
    rw [this] at h1
    simp at h1

/-- The Bloch functions of the chains -/
theorem on_iff {μ : ℂ} (hμ : ‖μ‖ = 1) (ψ : Fin n → ℂ) : IsBloch (diagH a) (diagonal t) μ ψ ↔ ∀ j, ψ j ≠ 0 → ∃ i, orb i = j ∧ lam i = μ := by
  rw [diag_bloch a t (unit_ne hμ)]
  refine forall_congr' fun j => ?_
  rw [mul_eq_zero, or_iff_not_imp_right]
  refine imp_congr_right fun _ => ⟨d.all j μ hμ, ?_⟩
  rintro ⟨i, rfl, rfl⟩
  exact d.on i

theorem input (hn : 0 < n) : ∃ psi, PropInput (linsysReg (exNum (diagSvd t)) (diagH a) (diagonal t)) lam psi := by
  obtain ⟨u, hf⟩ := setup_faithful _ (exNum_ok d.svd_ok) (d.setup hn) d.cut (by simp)
  refine propInput_of_bloch hf (full := of fun x i => if x = orb i then 1 else 0) d.unit ?_ ?_ ?_
  · intro i
    rw [d.on_iff (d.unit i)]
    intro j hj
    have h1 : j = orb i := by
      by_contra h0
      exact hj (if_neg h0)
    exact ⟨i, h1.symm, rfl⟩
  · intro μ c hc h0
    ext i
    by_cases hi : lam i = μ
    · have h1 := congrFun h0 (orb i)
      rw [mulVec, dotProduct, Finset.sum_eq_single i] at h1
      · simpa using h1
      · intro j _ hj
        by_cases hjμ : lam j = μ
        · rw [of_apply, if_neg, zero_mul]
          intro h2
          exact hj (d.inj j i (hjμ.trans hi.symm) h2.symm)
        · rw [hc j hjμ, mul_zero]
      · intro h2
        exact absurd (Finset.mem_univ _) h2
    · exact hc i hi
  · intro μ ψ hμ hψ
    rw [d.on_iff hμ] at hψ
    classical
    refine ⟨fun i => if lam i = μ then ψ (orb i) else 0, fun i hi => if_neg hi, ?_⟩
    ext j
    rw [mulVec, dotProduct]
    by_cases hj : ψ j = 0
    · rw [hj, Finset.sum_eq_zero]
      intro i _
      by_cases h1 : j = orb i
      · rw [← h1, hj, ite_self, mul_zero]
      · rw [of_apply, if_neg h1, zero_mul]
    · obtain ⟨i, h1, h2⟩ := hψ j hj
      rw [Finset.sum_eq_single i]
      · rw [of_apply, if_pos h1.symm, if_pos h2, one_mul, h1]
      · intro k _ hk
        by_cases h3 : lam k = μ
        · rw [of_apply, if_neg, zero_mul]
          intro h4
          exact hk (d.inj k i (h3.trans h2.symm) (h4.symm.trans h1.symm))
        · rw [if_neg h3, mul_zero]
      · intro h3
        exact absurd (Finset.mem_univ _) h3

/-- The velocities are those of the chains. -/
theorem card {r : ℕ} {lam' : Fin N → ℂ} {u v : Matrix (Fin n) (Fin r) ℂ} {psi : Matrix (Fin r ⊕ Fin r) (Fin N) ℂ} {full : Matrix (Fin n) (Fin N) ℂ} {vel : Fin N → ℝ}
    (hg : Good (diagH a) (diagonal t) u v lam' psi full vel) : ∃ τ : Equiv.Perm (Fin N), ∀ i, lam' (τ i) = lam i ∧ vel (τ i) = diagVel t (orb i) (lam i) := by
  classical
  have hle : ∀ (μ : ℂ) (w : ℝ), Fintype.card {i // (lam i, diagVel t (orb i) (lam i)) = (μ, w)} ≤ Fintype.card {i // (lam' i, vel i) = (μ, w)} := by
    intro μ w
    by_cases hμ : ‖μ‖ = 1
    · have := hg.card_le hμ (w := w) (ι := {i // (lam i, diagVel t (orb i) (lam i)) = (μ, w)}) (φ := fun i => Pi.single (orb i.1) 1) ?_ ?_
      · refine this.trans ?_
        rw [Fintype.card_subtype]
        refine Finset.card_le_card fun i hi => ?_
        rw [Finset.mem_filter] at hi ⊢
        exact ⟨hi.1, Prod.ext hi.2.1 hi.2.2⟩
      · rintro ⟨i, hi⟩
        rw [Prod.mk.injEq] at hi
        refine (diag_velState hμ).mpr ⟨?_, ?_⟩
        · rw [d.on_iff hμ]
          intro j hj
          refine ⟨i, ?_, hi.1⟩
          by_contra h0
          exact hj (Pi.single_eq_of_ne (fun h => h0 h.symm) _)
        · intro j hj
          have h1 : orb i = j := by
            by_contra h0
            exact hj (Pi.single_eq_of_ne (fun h => h0 h.symm) _)
          rw [← h1, ← hi.2, hi.1]
      · rintro ⟨i, hi⟩ ⟨j, hj⟩
        rw [Prod.mk.injEq] at hi hj
        have hs : star (Pi.single (orb i) (1 : ℂ) : Fin n → ℂ) = Pi.single (orb i) 1 := by
          rw [← Pi.single_star, star_one]
        rw [hs, single_dotProduct, one_mul, Pi.single_apply]
        by_cases h0 : orb i = orb j
        · have h1 := d.inj i j (hi.1.trans hj.1.symm) h0
          subst h1
          rw [if_pos rfl, if_pos rfl]
        · rw [if_neg h0, if_neg]
          intro h1
          exact h0 (congrArg (fun x => orb x.1) h1)
    · have : IsEmpty {i // (lam i, diagVel t (orb i) (lam i)) = (μ, w)} := by
        refine ⟨?_⟩
        rintro ⟨i, hi⟩
        rw [Prod.mk.injEq] at hi
        exact hμ (hi.1 ▸ d.unit i)
      rw [Fintype.card_eq_zero]
      exact Nat.zero_le _
  -- a finite set of values suffices
  let S : Finset (ℂ × ℝ) := (Finset.univ.image fun i => (lam i, diagVel t (orb i) (lam i))) ∪ Finset.univ.image fun i => (lam' i, vel i)
  have hsum : ∀ f : Fin N → ℂ × ℝ, (∀ i, f i ∈ S) → ∑ x ∈ S, Fintype.card {i // f i = x} = N := by
    intro f hf
    have := Finset.card_eq_sum_card_fiberwise (s := Finset.univ) (t := S) (f := f) fun i _ => hf i
    rw [Finset.card_univ, Fintype.card_fin] at this
    conv_rhs => rw [this]
    refine Finset.sum_congr rfl fun x _ => ?_
    rw [Fintype.card_subtype]
  have h1 := hsum (fun i => (lam i, diagVel t (orb i) (lam i))) fun i => Finset.mem_union_left _ (Finset.mem_image_of_mem _ (Finset.mem_univ i))
  have h2 := hsum (fun i => (lam' i, vel i)) fun i => Finset.mem_union_right _ (Finset.mem_image_of_mem _ (Finset.mem_univ i))
  have heq : ∀ x ∈ S, Fintype.card {i // (lam i, diagVel t (orb i) (lam i)) = x} = Fintype.card {i // (lam' i, vel i) = x} :=
    (Finset.sum_eq_sum_iff_of_le fun x _ => hle x.1 x.2).mp (h1.trans h2.symm)
  have heq' : ∀ x, Nonempty ({i // (lam i, diagVel t (orb i) (lam i)) = x} ≃ {i // (lam' i, vel i) = x}) := by
    intro x
    by_cases hx : x ∈ S
    · exact ⟨Fintype.equivOfCardEq (heq x hx)⟩
    · have e1 : IsEmpty {i // (lam i, diagVel t (orb i) (lam i)) = x} :=
        ⟨fun i => hx (i.2 ▸ Finset.mem_union_left _ (Finset.mem_image_of_mem _ (Finset.mem_univ i.1)))⟩
      have e2 : IsEmpty {i // (lam' i, vel i) = x} :=
        ⟨fun i => hx (i.2 ▸ Finset.mem_union_right _ (Finset.mem_image_of_mem (fun i => (lam' i, vel i)) (Finset.mem_univ i.1)))⟩
      exact ⟨Equiv.equivOfIsEmpty _ _⟩
  refine ⟨Equiv.ofFiberEquiv fun x => (heq' x).some, fun i => ?_⟩
  have := Equiv.ofFiberEquiv_map (fun x => (heq' x).some) i
  exact ⟨congrArg Prod.fst this, congrArg Prod.snd this⟩

/-- Without symmetries, modes are returned if the chains have the right velocities. -/
theorem ok (hn : 0 < n) {psi} (hp : PropInput (linsysReg (exNum (diagSvd t)) (diagH a) (diagonal t)) lam psi) (e : ModeNum n) (he : e.Ok) (hs : Separated e lam)
    (hv : ∀ i, e.velEps ≤ |diagVel t (orb i) (lam i)|) (hc : 2 * (Finset.univ.filter fun i => diagVel t (orb i) (lam i) < 0).card = N) (junk : Fin N → ℝ) :
    ∃ o, makeProperModes e ⟨none, none, none⟩ junk lam psi (linsysReg (exNum (diagSvd t)) (diagH a) (diagonal t)).extract = .ok o := by
  obtain ⟨u, hf⟩ := setup_faithful _ (exNum_ok d.svd_ok) (d.setup hn) d.cut (by simp)
  obtain ⟨m, hm⟩ := runClusters_none e (clusters e lam) ⟨psi, (linsysReg (exNum (diagSvd t)) (diagH a) (diagonal t)).extract psi lam, lam, junk, fun _ => 0⟩
  obtain ⟨g1, g2, g3⟩ := loop_good' e he hf hp hs hm
  obtain ⟨τ, hτ⟩ := d.card g1
  have hv' : velCheck e m.vel = true := by
    rw [velCheck, decide_eq_true_eq]
    constructor
    · intro i
      have := (hτ (τ.symm i)).2
      rw [Equiv.apply_symm_apply] at this
      rw [this]
      exact not_lt.mpr (hv _)
    · refine (congrArg (2 * ·) ?_).trans hc
      refine Finset.card_bij (fun i _ => τ.symm i) ?_ ?_ ?_
      · intro i hi
        rw [Finset.mem_filter] at hi ⊢
        refine ⟨Finset.mem_univ _, ?_⟩
        rw [← (hτ (τ.symm i)).2, Equiv.apply_symm_apply]
        exact hi.2
      · intro i _ j _ hij
        exact τ.symm.injective hij
      · intro i hi
        rw [Finset.mem_filter] at hi
        refine ⟨τ i, ?_, by simp⟩
        rw [Finset.mem_filter]
        refine ⟨Finset.mem_univ _, ?_⟩
        rw [(hτ i).2]
        exact hi.2
  rw [makeProperModes, hm]
  dsimp only
  rw [if_pos hv']
  exact ⟨_, rfl⟩

end DiagLead

/-- Proper modes, normalized to one. -/
theorem ProperSpec.good {h hop : Matrix (Fin n) (Fin n) ℂ} {L : Linsys n} {u : Matrix (Fin n) (Fin L.r) ℂ} (hf : Faithful h hop L u) {o : Proper n L.r N}
    (hp : ProperSpec h hop L o) : Good h hop u L.v (fun i => cexp (-(I * o.momenta i))) (of fun x i => ((Real.sqrt |o.velocities i| : ℝ) : ℂ) * o.psi x i)
      (of fun x i => ((Real.sqrt |o.velocities i| : ℝ) : ℂ) * o.waveFunctions x i) o.velocities := by
  have hpos : ∀ i, 0 < |o.velocities i| := fun i => abs_pos.mpr (hp.nonzero i)
  have hunit : ∀ i, ‖cexp (-(I * o.momenta i))‖ = 1 := by
    intro i
    rw [show -(I * (o.momenta i : ℂ)) = ((-o.momenta i : ℝ) : ℂ) * I by push_cast; ring, Complex.norm_exp_ofReal_mul_I]
  have hmom : ∀ i j, cexp (-(I * o.momenta i)) = cexp (-(I * o.momenta j)) → o.momenta i = o.momenta j := by
    intro i j hij
    have hk : ∀ i, (cexp (I * o.momenta i)) = (cexp (-(I * o.momenta i)))⁻¹ := by
      intro i
      rw [← Complex.exp_neg, neg_neg]
    have h1 : cexp (I * o.momenta i) = cexp (I * o.momenta j) := by rw [hk, hk, hij]
    obtain ⟨m, hm⟩ := Complex.exp_eq_exp_iff_exists_int.mp h1
    have h2 : o.momenta i = o.momenta j + m * (2 * Real.pi) := by
      have : I * ((o.momenta i : ℂ) - (o.momenta j + m * (2 * Real.pi))) = 0 := by linear_combination hm
      have := (mul_eq_zero.mp this).resolve_left I_ne_zero
      have := sub_eq_zero.mp this
      exact_mod_cast this
    have h3 := hp.range i
    have h4 := hp.range j
    have hpi := Real.pi_pos
    have h5 : m = 0 := by
      have h6 : (m : ℝ) < 1 := by nlinarith
      have h7 : (-1 : ℝ) < m := by nlinarith
      have h8 : m < 1 := by exact_mod_cast h6
      have h9 : -1 < m := by exact_mod_cast h7
      omega
    rw [h2, h5]
    simp
  have hc1 : ∀ i, (of fun x i => ((Real.sqrt |o.velocities i| : ℝ) : ℂ) * o.psi x i : Matrix (Fin L.r ⊕ Fin L.r) (Fin N) ℂ).col i =
      ((Real.sqrt |o.velocities i| : ℝ) : ℂ) • o.psi.col i := fun i => rfl
  have hc2 : ∀ i, (of fun x i => ((Real.sqrt |o.velocities i| : ℝ) : ℂ) * o.waveFunctions x i : Matrix (Fin n) (Fin N) ℂ).col i =
      ((Real.sqrt |o.velocities i| : ℝ) : ℂ) • o.waveFunctions.col i := fun i => rfl
  have hsq : ∀ i, ((Real.sqrt |o.velocities i| : ℝ) : ℂ) * ((Real.sqrt |o.velocities i| : ℝ) : ℂ) = ((|o.velocities i| : ℝ) : ℂ) := by
    intro i
    rw [← Complex.ofReal_mul, Real.mul_self_sqrt (hpos i).le]
  refine ⟨?_, ?_, ?_, ?_⟩
  · intro i
    rw [hc1, hc2]
    exact Link.smul (unit_ne (hunit i)) ((link_iff hf (unit_ne (hunit i)) _ _).mpr ⟨hp.solution i, (hp.wave i).symm⟩) _
  · intro i j hij
    rw [hc2, hc2, star_smul, smul_dotProduct, dotProduct_smul, hp.orthogonal i j (hmom i j hij), star_def, Complex.conj_ofReal]
    by_cases h0 : i = j
    · subst h0
      rw [if_pos rfl, if_pos rfl, smul_eq_mul, smul_eq_mul, ← mul_assoc, hsq, ← Complex.ofReal_mul, mul_one_div_cancel (hpos i).ne', Complex.ofReal_one]
    · rw [if_neg h0, if_neg h0, smul_zero, smul_zero]
  · intro i j hij
    have := hp.velocity i j (hmom i j hij)
    have hv : velK hop (o.momenta i) = velMu hop (cexp (-(I * o.momenta i))) := rfl
    rw [hv] at this
    rw [hc2, hc2, star_smul, smul_dotProduct, mulVec_smul, dotProduct_smul, this, star_def, Complex.conj_ofReal]
    by_cases h0 : i = j
    · subst h0
      rw [if_pos rfl, if_pos rfl, smul_eq_mul, smul_eq_mul, ← mul_assoc, hsq, ← Complex.ofReal_mul, mul_div_cancel₀ _ (hpos i).ne']
    · rw [if_neg h0, if_neg h0, smul_zero, smul_zero]
  · intro μ ψ hμ hψ
    have hk : μ = cexp (-(I * ((-μ.arg : ℝ) : ℂ))) := by
      conv_lhs => rw [← cexp_arg hμ]
    rw [hk] at hψ
    obtain ⟨c, h1, h2⟩ := hp.complete _ _ hψ
    rw [← hk] at h1
    have hs : ∀ i, ((Real.sqrt |o.velocities i| : ℝ) : ℂ) ≠ 0 := fun i => Complex.ofReal_ne_zero.mpr (Real.sqrt_pos.mpr (hpos i)).ne'
    refine ⟨fun i => c i / ((Real.sqrt |o.velocities i| : ℝ) : ℂ), fun i hi => by simp only [h1 i hi, zero_div], ?_⟩
    rw [h2]
    ext x
    rw [mulVec, dotProduct, mulVec, dotProduct]
    refine Finset.sum_congr rfl fun i _ => ?_
    rw [of_apply, mul_comm, mul_div_assoc', mul_comm (_ * _), ← mul_assoc, mul_div_assoc]
    field_simp [hs i]

/-- The proper modes of uncoupled chains: all Bloch functions of the chains occur, and a mode is a superposition of chains with the same velocity. -/
theorem DiagLead.proper (d : DiagLead a t lam orb) {L : Linsys n} {u : Matrix (Fin n) (Fin L.r) ℂ} (hf : Faithful (diagH a) (diagonal t) L u) {o : Proper n L.r N}
    (hp : ProperSpec (diagH a) (diagonal t) L o) : ∃ τ : Equiv.Perm (Fin N), ∀ i, o.momenta (τ i) = -(lam i).arg ∧ o.velocities (τ i) = diagVel t (orb i) (lam i) ∧
      (∃ j, o.waveFunctions j (τ i) ≠ 0) ∧
      ∀ j, o.waveFunctions j (τ i) ≠ 0 → (∃ i', orb i' = j ∧ lam i' = lam i) ∧ diagVel t j (lam i) = diagVel t (orb i) (lam i) := by
  have hg := hp.good hf
  obtain ⟨τ, hτ⟩ := d.card hg
  refine ⟨τ, fun i => ?_⟩
  obtain ⟨h1, h2⟩ := hτ i
  have hu : ∀ i, ‖cexp (-(I * o.momenta i))‖ = 1 := by
    intro i
    rw [show -(I * (o.momenta i : ℂ)) = ((-o.momenta i : ℝ) : ℂ) * I by push_cast; ring, Complex.norm_exp_ofReal_mul_I]
  have hv := hg.velState hu (τ i)
  have hne := hg.ne_zero (τ i)
  rw [h1, h2] at hv
  obtain ⟨h3, h4⟩ := (diag_velState (d.unit i)).mp hv
  have hs : ((Real.sqrt |o.velocities (τ i)| : ℝ) : ℂ) ≠ 0 := Complex.ofReal_ne_zero.mpr (Real.sqrt_pos.mpr (abs_pos.mpr (hp.nonzero _))).ne'
  refine ⟨?_, h2, ?_, ?_⟩
  · rw [← h1]
    have hr := hp.range (τ i)
    rw [show -(I * (o.momenta (τ i) : ℂ)) = ((-o.momenta (τ i) : ℝ) : ℂ) * I by push_cast; ring, Complex.arg_exp_mul_I, (toIocMod_eq_self _).mpr, neg_neg]
    constructor <;> linarith [hr.1, hr.2]
  · obtain ⟨j, hj⟩ := Function.ne_iff.mp hne
    exact ⟨j, fun h0 => hj (by simp [Matrix.col, h0])⟩
  · intro j hj
    have hj' : (of fun x i => ((Real.sqrt |o.velocities i| : ℝ) : ℂ) * o.waveFunctions x i : Matrix (Fin n) (Fin N) ℂ).col (τ i) j ≠ 0 := mul_ne_zero hs hj
    exact ⟨(d.on_iff (d.unit i) _).mp h3 j hj', h4 j hj'⟩

end Kwant.Leads
