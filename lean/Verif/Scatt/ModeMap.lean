import Verif.Scatt.SymSpec

/-!
C188: what a symmetry does to the modes of a lead.
-/

set_option linter.unusedSectionVars false

namespace Kwant.Scatt
open Finset Complex Filter
open Matrix hiding mulVec
open Kwant.Leads hiding Modes
open Kwant.Solver hiding transmission LErr mulVec

variable {n : ℕ} {c g : Bool}

/-- A symmetry of the bulk of a lead. -/
structure CellMap (c g : Bool) (h hop h' hop' R : Matrix (Fin n) (Fin n) ℂ) : Prop where
  unitary : Rᴴ * R = 1
  cell : R * h.map (kap c) = (eta g : ℂ) • (h' * R)
  hop : R * hop.map (kap c) = (eta g : ℂ) • (hop' * R)

/-- The sign that a symmetry gives the velocities. -/
def eps (c g : Bool) : ℝ := (if c then -1 else 1) * eta g

theorem eps_sq (c g : Bool) : eps c g = 1 ∨ eps c g = -1 := by
  cases c <;> cases g <;> simp [eps, eta]

theorem CellMap.hopH {h hop h' hop' R : Matrix (Fin n) (Fin n) ℂ} (hm : CellMap c g h hop h' hop' R) : R * hopᴴ.map (kap c) = (eta g : ℂ) • (hop'ᴴ * R) := by
  have h1 : R * Rᴴ = 1 := mul_eq_one_comm.mp hm.unitary
  have h2 := congrArg conjTranspose hm.hop
  have h3 : star (eta g : ℂ) = eta g := conj_ofReal _
  rw [conjTranspose_mul, conjTranspose_smul, conjTranspose_mul, map_kap_conjTranspose, h3] at h2
  have h4 := congrArg (fun X => R * X * R) h2
  simp only [Matrix.mul_smul, Matrix.smul_mul] at h4
  rw [Matrix.mul_assoc, Matrix.mul_assoc, hm.unitary, Matrix.mul_one, ← Matrix.mul_assoc, h1, Matrix.one_mul] at h4
  exact h4

theorem CellMap.inv {h hop h' hop' R : Matrix (Fin n) (Fin n) ℂ} (hm : CellMap c g h hop h' hop' R) : CellMap c g h' hop' h hop (Rᴴ.map (kap c)) := by
  have h1 : R * Rᴴ = 1 := mul_eq_one_comm.mp hm.unitary
  have key : ∀ a a' : Matrix (Fin n) (Fin n) ℂ, R * a.map (kap c) = (eta g : ℂ) • (a' * R) → Rᴴ.map (kap c) * a'.map (kap c) = (eta g : ℂ) • (a * Rᴴ.map (kap c)) := by
    intro a a' h2
    have h3 := congrArg (fun X => Rᴴ * X * Rᴴ) h2
    simp only [Matrix.mul_smul, Matrix.smul_mul] at h3
    rw [← Matrix.mul_assoc, hm.unitary, Matrix.one_mul, ← Matrix.mul_assoc, Matrix.mul_assoc, h1, Matrix.mul_one] at h3
    have h4 := congrArg (fun X : Matrix (Fin n) (Fin n) ℂ => (eta g : ℂ) • X.map (kap c)) h3
    have h5 : (((eta g : ℂ) • (Rᴴ * a')).map (kap c)) = (eta g : ℂ) • (Rᴴ.map (kap c) * a'.map (kap c)) := by
      rw [← Matrix.map_mul]
      ext i j
      change kap c ((eta g : ℂ) * _) = (eta g : ℂ) * kap c _
      rw [map_mul, kap_real]
    simp only [Matrix.map_mul, map_kap_kap, h5, smul_smul, eta_sq, one_smul] at h4
    exact h4.symm
  refine ⟨?_, key _ _ hm.cell, key _ _ hm.hop⟩
  rw [map_kap_conjTranspose, conjTranspose_conjTranspose, ← Matrix.map_mul, h1]
  exact Matrix.map_one _ (map_zero _) (map_one _)

/-- The image of a state. -/
noncomputable def CellMap.img (c : Bool) (R : Matrix (Fin n) (Fin n) ℂ) (ψ : Fin n → ℂ) : Fin n → ℂ := R *ᵥ fun i => kap c (ψ i)

theorem img_mulVec {a a' R : Matrix (Fin n) (Fin n) ℂ} {z : ℂ} (h : R * a.map (kap c) = z • (a' * R)) (ψ : Fin n → ℂ) :
    CellMap.img c R (a *ᵥ ψ) = z • (a' *ᵥ CellMap.img c R ψ) := by
  unfold CellMap.img
  rw [kap_mulVec, Matrix.mulVec_mulVec, h, Matrix.smul_mulVec, ← Matrix.mulVec_mulVec]

theorem img_add (R : Matrix (Fin n) (Fin n) ℂ) (x y : Fin n → ℂ) : CellMap.img c R (x + y) = CellMap.img c R x + CellMap.img c R y := by
  unfold CellMap.img
  rw [← Matrix.mulVec_add]
  congr 1
  ext i
  exact map_add _ _ _

theorem img_smul (R : Matrix (Fin n) (Fin n) ℂ) (z : ℂ) (x : Fin n → ℂ) : CellMap.img c R (z • x) = kap c z • CellMap.img c R x := by
  unfold CellMap.img
  rw [← Matrix.mulVec_smul]
  congr 1
  ext i
  exact map_mul _ _ _

theorem img_zero (R : Matrix (Fin n) (Fin n) ℂ) : CellMap.img c R 0 = 0 := by
  have := img_smul (c := c) R 0 0
  rwa [zero_smul, map_zero, zero_smul] at this

theorem img_sum {ι : Type} (R : Matrix (Fin n) (Fin n) ℂ) (s : Finset ι) (f : ι → Fin n → ℂ) : CellMap.img c R (∑ i ∈ s, f i) = ∑ i ∈ s, CellMap.img c R (f i) := by
  classical
  induction s using Finset.induction_on with
  | empty => rw [Finset.sum_empty, Finset.sum_empty, img_zero]
  | insert a s ha ih => rw [Finset.sum_insert ha, Finset.sum_insert ha, img_add, ih]

theorem img_continuous (R : Matrix (Fin n) (Fin n) ℂ) : Continuous (CellMap.img c R) := by
  unfold CellMap.img Matrix.mulVec dotProduct
  refine continuous_pi fun i => continuous_finset_sum _ fun j _ => continuous_const.mul ((kap_continuous c).comp (continuous_apply j))

theorem dot_img {R : Matrix (Fin n) (Fin n) ℂ} (hu : Rᴴ * R = 1) (x y : Fin n → ℂ) : star (CellMap.img c R x) ⬝ᵥ CellMap.img c R y = kap c (star x ⬝ᵥ y) := by
  unfold CellMap.img
  rw [star_mulVec, ← dotProduct_mulVec, Matrix.mulVec_mulVec, hu, Matrix.one_mulVec, dotProduct, dotProduct, map_sum]
  refine Finset.sum_congr rfl fun i _ => ?_
  rw [map_mul]
  change star (kap c (x i)) * _ = kap c (star (x i)) * _
  rw [kap_star]

variable {h hop h' hop' R : Matrix (Fin n) (Fin n) ℂ}

theorem CellMap.bloch (hm : CellMap c g h hop h' hop' R) {μ : ℂ} {ψ : Fin n → ℂ} (hb : IsBloch h hop μ ψ) : IsBloch h' hop' (kap c μ) (CellMap.img c R ψ) := by
  intro j
  have h1 := congrArg (CellMap.img c R) (hb j)
  rw [img_add, img_add, img_mulVec hm.cell, img_mulVec hm.hop, img_mulVec hm.hopH, img_zero, ← smul_add, ← smul_add] at h1
  simp only [img_smul, map_zpow₀, map_inv₀] at h1
  have h2 := congrArg (fun x => (eta g : ℂ) • x) h1
  simp only [smul_smul (eta g : ℂ) (eta g : ℂ), eta_sq, one_smul, smul_zero] at h2
  exact h2

/-- The momentum changes its sign under complex conjugation. -/
theorem kap_phase (c : Bool) (k : ℝ) : kap c (cexp (-(I * k))) = cexp (-(I * ((if c then -k else k : ℝ) : ℂ))) := by
  cases c
  · rfl
  · rw [kap_true]
    change (starRingEnd ℂ) _ = _
    rw [← Complex.exp_conj]
    congr 1
    simp

theorem CellMap.velocity (hm : CellMap c g h hop h' hop' R) (k : ℝ) (ψ : Fin n → ℂ) :
    CellMap.img c R (velK hop k *ᵥ ψ) = (eps c g : ℂ) • (velK hop' (if c then -k else k) *ᵥ CellMap.img c R ψ) := by
  refine img_mulVec ?_ ψ
  unfold velK
  have h1 : ∀ z : ℂ, ∀ a : Matrix (Fin n) (Fin n) ℂ, (z • a).map (kap c) = kap c z • a.map (kap c) := by
    intro z a
    ext i j
    exact map_mul (kap c) z (a i j)
  have h2 : kap c (-I * cexp (-(I * k))) = (if c then -1 else 1 : ℂ) * (-I * cexp (-(I * ((if c then -k else k : ℝ) : ℂ)))) := by
    rw [map_mul, kap_phase, map_neg]
    cases c
    · simp [kap_false]
    · rw [kap_true]
      simp
  have h3 : (eps c g : ℂ) = (if c then -1 else 1 : ℂ) * eta g := by
    cases c <;> simp [eps]
  rw [conjTranspose_smul, conjTranspose_smul, Matrix.map_add _ (map_add _), Matrix.mul_add, h1, h1, Matrix.mul_smul, Matrix.mul_smul, hm.hop, hm.hopH, kap_star, h2, h3, star_mul']
  have h4 : star (if c then -1 else 1 : ℂ) = if c then -1 else 1 := by cases c <;> simp
  rw [h4, Matrix.add_mul, Matrix.smul_mul, Matrix.smul_mul, smul_add, smul_smul, smul_smul, smul_smul, smul_smul]
  congr 1 <;> congr 1 <;> ring

section
variable {N Q S N' Q' S' : Type} [Fintype N] [Fintype Q] [Fintype S] [DecidableEq N] [DecidableEq Q] [DecidableEq S] [Fintype N'] [Fintype Q'] [Fintype S'] [DecidableEq N']
  [DecidableEq Q'] [DecidableEq S'] {wf : Matrix (Fin n) N ℂ} {mom vel : N → ℝ} {X Y : Matrix S (N ⊕ Q) ℂ} {v : Matrix (Fin n) S ℂ} {s : N → ℂ} {wf' : Matrix (Fin n) N' ℂ}
  {mom' vel' : N' → ℝ} {X' Y' : Matrix S' (N' ⊕ Q') ℂ} {v' : Matrix (Fin n) S' ℂ} {s' : N' → ℂ}

/-- The image of a mode is a combination of the modes with the corresponding momentum. -/
theorem expand (hm : CellMap c g h hop h' hop' R) (hs : LeadSpec h hop wf mom vel X Y v s) (hs' : LeadSpec h' hop' wf' mom' vel' X' Y' v' s') :
    ∃ D : Matrix N' N ℂ, (∀ i, CellMap.img c R (wf.col i) = ∑ j, D j i • wf'.col j) ∧ (∀ j i, D j i ≠ 0 → cexp (-(I * mom' j)) = kap c (cexp (-(I * mom i)))) ∧
      (∀ i i', ∑ j, star (D j i) * D j i' * ((1 / |vel' j| : ℝ) : ℂ) = if i = i' then ((1 / |vel i| : ℝ) : ℂ) else 0) ∧
      ∀ i i', ∑ j, star (D j i) * D j i' * ((vel' j / |vel' j| : ℝ) : ℂ) = if i = i' then ((eps c g * (vel i / |vel i|) : ℝ) : ℂ) else 0 := by
  have h1 : ∀ i, ∃ d : N' → ℂ, (∀ j, cexp (-(I * mom' j)) ≠ kap c (cexp (-(I * mom i))) → d j = 0) ∧ CellMap.img c R (wf.col i) = wf' *ᵥ d := by
    intro i
    have h2 := hm.bloch (hs.bloch i)
    rw [kap_phase] at h2 ⊢
    exact hs'.complete _ _ h2
  choose d hd he using h1
  have hex : ∀ i, CellMap.img c R (wf.col i) = ∑ j, d i j • wf'.col j := by
    intro i
    rw [he i]
    ext x
    simp only [Matrix.mulVec, dotProduct, Finset.sum_apply, Pi.smul_apply, smul_eq_mul, col_apply]
    exact Finset.sum_congr rfl fun j _ => mul_comm _ _
  have hsup : ∀ j i, d i j ≠ 0 → cexp (-(I * mom' j)) = kap c (cexp (-(I * mom i))) := fun j i h => by_contra fun h2 => h (hd i j h2)
  -- the two forms, for modes of the same momentum
  have hsum : ∀ (F : (Fin n → ℂ) → Fin n → ℂ), (∀ (a : ℂ) (x y : Fin n → ℂ), F (a • x + y) = a • F x + F y) → F 0 = 0 → ∀ i i',
      star (CellMap.img c R (wf.col i)) ⬝ᵥ F (CellMap.img c R (wf.col i')) = ∑ j, ∑ j', star (d i j) * d i' j' * (star (wf'.col j) ⬝ᵥ F (wf'.col j')) := by
    intro F hF hF0 i i'
    have hFs : ∀ (t : Finset N') (f : N' → ℂ), F (∑ j ∈ t, f j • wf'.col j) = ∑ j ∈ t, f j • F (wf'.col j) := by
      intro t f
      induction t using Finset.induction_on with
      | empty => exact hF0
      | insert a t ha ih => rw [Finset.sum_insert ha, Finset.sum_insert ha, hF, ih]
    rw [hex i, hex i', hFs, star_sum, sum_dotProduct]
    refine Finset.sum_congr rfl fun j _ => ?_
    rw [dotProduct_sum]
    refine Finset.sum_congr rfl fun j' _ => ?_
    rw [star_smul, smul_dotProduct, dotProduct_smul, smul_eq_mul, smul_eq_mul]
    ring
  have hzero : ∀ i i', cexp (-(I * mom i)) ≠ cexp (-(I * mom i')) → ∀ j, star (d i j) * d i' j = 0 := by
    intro i i' hne j
    by_contra h2
    have h3 : d i j ≠ 0 := fun h => h2 (by rw [h, star_zero, zero_mul])
    have h4 : d i' j ≠ 0 := fun h => h2 (by rw [h, mul_zero])
    have h5 := (hsup j i h3).symm.trans (hsup j i' h4)
    exact hne (RingHom.injective (kap c) h5)
  refine ⟨of fun j i => d i j, hex, hsup, ?_, ?_⟩
  · intro i i'
    simp only [of_apply]
    by_cases hk : cexp (-(I * mom i)) = cexp (-(I * mom i'))
    · have h2 := hsum id (fun _ _ _ => rfl) rfl i i'
      simp only [id] at h2
      rw [dot_img hm.unitary, hs.orthogonal i i' hk] at h2
      have h3 : kap c (if i = i' then ((1 / |vel i| : ℝ) : ℂ) else 0) = if i = i' then ((1 / |vel i| : ℝ) : ℂ) else 0 := by
        by_cases hi : i = i'
        · rw [if_pos hi, kap_real]
        · rw [if_neg hi, map_zero]
      rw [h3] at h2
      rw [h2]
      refine Finset.sum_congr rfl fun j _ => ?_
      rw [Finset.sum_eq_single j]
      · rw [hs'.orthogonal j j rfl, if_pos rfl]
      · intro j' _ hj'
        by_cases hz : d i j = 0 ∨ d i' j' = 0
        · rcases hz with hz | hz <;> rw [hz] <;> simp
        · obtain ⟨hz1, hz2⟩ := not_or.mp hz
          have h4 : cexp (-(I * mom' j)) = cexp (-(I * mom' j')) := by rw [hsup j i hz1, hsup j' i' hz2, hk]
          rw [hs'.orthogonal j j' h4, if_neg (Ne.symm hj'), mul_zero]
      · intro hj; exact absurd (Finset.mem_univ j) hj
    · rw [if_neg (fun hi => hk (by rw [hi]))]
      refine Finset.sum_eq_zero fun j _ => ?_
      rw [hzero i i' hk j, zero_mul]
  · intro i i'
    simp only [of_apply]
    by_cases hk : cexp (-(I * mom i)) = cexp (-(I * mom i'))
    · have h2 := hsum (fun x => (eps c g : ℂ) • (velK hop' (if c then -mom i else mom i) *ᵥ x))
        (fun a x y => by rw [Matrix.mulVec_add, Matrix.mulVec_smul, smul_add, smul_comm]) (by rw [Matrix.mulVec_zero, smul_zero]) i i'
      rw [← hm.velocity, dot_img hm.unitary, hs.velocity i i' hk] at h2
      have h3 : kap c (if i = i' then ((vel i / |vel i| : ℝ) : ℂ) else 0) = if i = i' then ((vel i / |vel i| : ℝ) : ℂ) else 0 := by
        by_cases hi : i = i'
        · rw [if_pos hi, kap_real]
        · rw [if_neg hi, map_zero]
      have h5 : (eps c g : ℂ) * eps c g = 1 := by
        rcases eps_sq c g with h | h <;> rw [h] <;> simp
      have h6 : (if i = i' then ((eps c g * (vel i / |vel i|) : ℝ) : ℂ) else 0) = (eps c g : ℂ) * kap c (if i = i' then ((vel i / |vel i| : ℝ) : ℂ) else 0) := by
        rw [h3]
        by_cases hi : i = i'
        · rw [if_pos hi, if_pos hi, ofReal_mul]
        · rw [if_neg hi, if_neg hi, mul_zero]
      rw [h6, h2, Finset.mul_sum]
      refine Finset.sum_congr rfl fun j _ => ?_
      rw [Finset.sum_eq_single j]
      · by_cases hz : d i j = 0
        · rw [hz]; simp
        · have h7 := hsup j i hz
          rw [kap_phase] at h7
          have h8 : velK hop' (if c then -mom i else mom i) = velK hop' (mom' j) := by
            unfold velK
            rw [h7]
          have h9 := hs'.velocity j j rfl
          rw [if_pos rfl] at h9
          rw [h8, dotProduct_smul, h9, smul_eq_mul]
          linear_combination (-(star (d i j) * d i' j * ((vel' j / |vel' j| : ℝ) : ℂ))) * h5
      · intro j' _ hj'
        by_cases hz : d i j = 0 ∨ d i' j' = 0
        · rcases hz with hz | hz <;> rw [hz] <;> simp
        · obtain ⟨hz1, hz2⟩ := not_or.mp hz
          have h4 : cexp (-(I * mom' j)) = cexp (-(I * mom' j')) := by rw [hsup j i hz1, hsup j' i' hz2, hk]
          have h7 := hsup j i hz1
          rw [kap_phase] at h7
          have h8 : velK hop' (if c then -mom i else mom i) = velK hop' (mom' j) := by
            unfold velK
            rw [h7]
          rw [h8, dotProduct_smul, hs'.velocity j j' h4, if_neg (Ne.symm hj'), smul_zero, mul_zero]
      · intro hj; exact absurd (Finset.mem_univ j) hj
    · rw [if_neg (fun hi => hk (by rw [hi]))]
      refine Finset.sum_eq_zero fun j _ => ?_
      rw [hzero i i' hk j, zero_mul]

theorem left_inv (hs : LeadSpec h hop wf mom vel X Y v s) {D : Matrix N' N ℂ}
    (h1 : ∀ i i', ∑ j, star (D j i) * D j i' * ((1 / |vel' j| : ℝ) : ℂ) = if i = i' then ((1 / |vel i| : ℝ) : ℂ) else 0) :
    (of fun i j => ((|vel i| / |vel' j| : ℝ) : ℂ) * star (D j i) : Matrix N N' ℂ) * D = 1 := by
  ext i i'
  rw [mul_apply, one_apply]
  have h2 := congrArg (fun z => ((|vel i| : ℝ) : ℂ) * z) (h1 i i')
  simp only [Finset.mul_sum] at h2
  have h3 : ((|vel i| : ℝ) : ℂ) ≠ 0 := by
    rw [Ne, ofReal_eq_zero, abs_eq_zero]
    exact hs.nonzero i
  have h4 : (((|vel i| : ℝ) : ℂ) * if i = i' then ((1 / |vel i| : ℝ) : ℂ) else 0) = if i = i' then 1 else 0 := by
    by_cases hi : i = i'
    · rw [if_pos hi, if_pos hi, ofReal_div, ofReal_one, mul_one_div_cancel h3]
    · rw [if_neg hi, if_neg hi, mul_zero]
  rw [h4] at h2
  rw [← h2]
  refine Finset.sum_congr rfl fun j _ => ?_
  rw [of_apply, ofReal_div, ofReal_div, ofReal_one]
  ring

theorem card_le_of_left_inv {L : Matrix N N' ℂ} {D : Matrix N' N ℂ} (hl : L * D = 1) : Fintype.card N ≤ Fintype.card N' := by
  have h1 : Function.Injective D.mulVecLin := by
    intro x y hxy
    have h2 := congrArg (fun z => L *ᵥ z) hxy
    simp only [mulVecLin_apply, Matrix.mulVec_mulVec, hl, Matrix.one_mulVec] at h2
    exact h2
  have h2 := LinearMap.finrank_le_finrank_of_injective h1
  simpa using h2

/-- A symmetry maps the modes of a lead to combinations of modes with the same absolute value of the velocity, by a unitary matrix. -/
theorem mode_map (hm : CellMap c g h hop h' hop' R) (hs : LeadSpec h hop wf mom vel X Y v s) (hs' : LeadSpec h' hop' wf' mom' vel' X' Y' v' s') :
    ∃ D : Matrix N' N ℂ, (∀ i, CellMap.img c R (wf.col i) = ∑ j, D j i • wf'.col j) ∧
      (∀ j i, D j i ≠ 0 → cexp (-(I * mom' j)) = kap c (cexp (-(I * mom i))) ∧ vel' j = eps c g * vel i) ∧ Dᴴ * D = 1 ∧ D * Dᴴ = 1 ∧ Fintype.card N = Fintype.card N' := by
  obtain ⟨D, hD1, hD2, hD3, hD4⟩ := expand hm hs hs'
  obtain ⟨D', _, _, hD3', _⟩ := expand hm.inv hs' hs
  have hl := left_inv hs hD3
  have hcard : Fintype.card N = Fintype.card N' := le_antisymm (card_le_of_left_inv hl) (card_le_of_left_inv (left_inv hs' hD3'))
  have hr := (mul_eq_one_comm_of_card_eq N N' ℂ hcard).mp hl
  -- the second left inverse
  have hl2 : (of fun i j => ((eps c g * (vel i / |vel i|) * (vel' j / |vel' j|) : ℝ) : ℂ) * star (D j i) : Matrix N N' ℂ) * D = 1 := by
    ext i i'
    rw [mul_apply, one_apply]
    have h2 := congrArg (fun z => ((eps c g * (vel i / |vel i|) : ℝ) : ℂ) * z) (hD4 i i')
    simp only [Finset.mul_sum] at h2
    have h4 : (((eps c g * (vel i / |vel i|) : ℝ) : ℂ) * if i = i' then ((eps c g * (vel i / |vel i|) : ℝ) : ℂ) else 0) = if i = i' then 1 else 0 := by
      by_cases hi : i = i'
      · rw [if_pos hi, if_pos hi, ← ofReal_mul, ← ofReal_one]
        congr 1
        have h5 : |vel i| ≠ 0 := abs_ne_zero.mpr (hs.nonzero i)
        have h6 : (vel i / |vel i|) * (vel i / |vel i|) = 1 := by
          rw [div_mul_div_comm, abs_mul_abs_self, div_self (mul_ne_zero (hs.nonzero i) (hs.nonzero i))]
        have h7 : eps c g * eps c g = 1 := by rcases eps_sq c g with h | h <;> rw [h] <;> norm_num
        linear_combination h6 * eps c g * eps c g + h7
      · rw [if_neg hi, if_neg hi, mul_zero]
    rw [h4] at h2
    rw [← h2]
    refine Finset.sum_congr rfl fun j _ => ?_
    rw [of_apply, ofReal_mul _ (vel' j / |vel' j|)]
    ring
  have heq2 : (of fun i j => ((eps c g * (vel i / |vel i|) * (vel' j / |vel' j|) : ℝ) : ℂ) * star (D j i) : Matrix N N' ℂ) =
      of fun i j => ((|vel i| / |vel' j| : ℝ) : ℂ) * star (D j i) := by
    rw [← Matrix.mul_one (of fun i j => ((eps c g * (vel i / |vel i|) * (vel' j / |vel' j|) : ℝ) : ℂ) * star (D j i) : Matrix N N' ℂ), ← hr, ← Matrix.mul_assoc, hl2, Matrix.one_mul]
  have hone : ∀ j i, D j i ≠ 0 → |vel i| / |vel' j| = 1 ∧ vel' j = eps c g * vel i := by
    intro j i hji
    have h2 := congrFun (congrFun heq2 i) j
    rw [of_apply, of_apply] at h2
    have h3 : star (D j i) ≠ 0 := fun h => hji (star_eq_zero.mp h)
    have h4 := mul_right_cancel₀ h3 h2
    rw [ofReal_inj] at h4
    have p1 : 0 < |vel i| := abs_pos.mpr (hs.nonzero i)
    have p2 : 0 < |vel' j| := abs_pos.mpr (hs'.nonzero j)
    have p3 : 0 < |vel i| / |vel' j| := div_pos p1 p2
    have s1 : vel i / |vel i| = 1 ∧ vel i = |vel i| ∨ vel i / |vel i| = -1 ∧ vel i = -|vel i| := by
      rcases lt_or_gt_of_ne (hs.nonzero i) with h | h
      · right
        rw [abs_of_neg h, neg_neg, div_neg, div_self h.ne]
        exact ⟨rfl, rfl⟩
      · left
        rw [abs_of_pos h, div_self h.ne']
        exact ⟨rfl, rfl⟩
    have s2 : vel' j / |vel' j| = 1 ∧ vel' j = |vel' j| ∨ vel' j / |vel' j| = -1 ∧ vel' j = -|vel' j| := by
      rcases lt_or_gt_of_ne (hs'.nonzero j) with h | h
      · right
        rw [abs_of_neg h, neg_neg, div_neg, div_self h.ne]
        exact ⟨rfl, rfl⟩
      · left
        rw [abs_of_pos h, div_self h.ne']
        exact ⟨rfl, rfl⟩
    have fin : ∀ q : ℝ, q = 1 ∨ q = -1 → q = |vel i| / |vel' j| → |vel i| / |vel' j| = 1 ∧ |vel i| = |vel' j| ∧ q = 1 := by
      intro q hq hq2
      rcases hq with h | h
      · rw [h] at hq2
        exact ⟨hq2.symm, (div_eq_one_iff_eq p2.ne').mp hq2.symm, h⟩
      · rw [h] at hq2
        linarith
    rcases eps_sq c g with he | he <;> rcases s1 with ⟨a1, b1⟩ | ⟨a1, b1⟩ <;> rcases s2 with ⟨a2, b2⟩ | ⟨a2, b2⟩ <;> rw [he, a1, a2] at h4 <;>
      obtain ⟨f1, f2, f3⟩ := fin _ (by norm_num) h4 <;> first | (exfalso; norm_num at f3; done) | (refine ⟨f1, ?_⟩; rw [he, b1, b2, f2]; ring)
  have hH : (of fun i j => ((|vel i| / |vel' j| : ℝ) : ℂ) * star (D j i) : Matrix N N' ℂ) = Dᴴ := by
    ext i j
    rw [of_apply, conjTranspose_apply]
    by_cases hz : D j i = 0
    · rw [hz, star_zero, mul_zero]
    · rw [(hone j i hz).1, ofReal_one, one_mul]
  rw [hH] at hl hr
  exact ⟨D, hD1, fun j i hz => ⟨hD2 j i hz, (hone j i hz).2⟩, hl, hr, hcard⟩
end

end Kwant.Scatt
