import Verif.Leads.BlockMain

/-!
C113, third part: the numbers of left- and right-movers agree, so that the only error of `compute_block_modes` is a mode of (nearly) vanishing velocity.
-/

set_option linter.unusedSectionVars false

namespace Kwant.Leads
open Matrix Complex
open scoped ComplexOrder

variable {n r : ℕ}

/-- A space of solutions on which the current has one sign has at most the dimension `r`. -/
theorem half_bound {K M : Type} [Fintype K] [DecidableEq K] [Fintype M] [DecidableEq M] {P : Matrix (Fin r ⊕ Fin r) K ℂ} {Z : Matrix (Fin r ⊕ Fin r) M ℂ}
    {d : K → ℝ} {σ : ℝ} (hσ : σ * σ = 1) (hd : ∀ i, 0 < d i) (hpp : cross P P = diagonal fun i => ((σ * d i : ℝ) : ℂ)) (hpz : cross P Z = 0) (hzp : cross Z P = 0)
    (hzz : cross Z Z = 0) (hz : ∀ c, Z *ᵥ c = 0 → c = 0) : Fintype.card K + Fintype.card M ≤ r := by
  let B : Matrix (Fin r) (K ⊕ M) ℂ := fromCols (P.toRows₁ + ((σ : ℂ) * I) • P.toRows₂) (Z.toRows₁ + ((σ : ℂ) * I) • Z.toRows₂)
  have hB : ∀ c, B *ᵥ c = 0 → c = 0 := by
    intro c hc
    set c1 : K → ℂ := c ∘ Sum.inl
    set c2 : M → ℂ := c ∘ Sum.inr
    have hcc : c = Sum.elim c1 c2 := by ext (i | i) <;> rfl
    set x := P.toRows₁ *ᵥ c1 + Z.toRows₁ *ᵥ c2 with hx
    set y := P.toRows₂ *ᵥ c1 + Z.toRows₂ *ᵥ c2 with hy
    have hxy : x = -((σ : ℂ) * I) • y := by
      have h1 : B *ᵥ c = x + ((σ : ℂ) * I) • y := by
        rw [hcc, fromCols_mulVec_sumElim, add_mulVec, add_mulVec, smul_mulVec, smul_mulVec, hx, hy, smul_add]
        abel
      rw [hc] at h1
      rw [neg_smul]
      exact eq_neg_of_add_eq_zero_left h1.symm
    -- the current of the combination
    have key : I * (star x ⬝ᵥ y - star y ⬝ᵥ x) = star c1 ⬝ᵥ (cross P P *ᵥ c1) + star c1 ⬝ᵥ (cross P Z *ᵥ c2) + star c2 ⬝ᵥ (cross Z P *ᵥ c1) + star c2 ⬝ᵥ (cross Z Z *ᵥ c2) := by
      have hb : ∀ {K' M' : Type} [Fintype K'] [Fintype M'] (A : Matrix (Fin r ⊕ Fin r) K' ℂ) (A' : Matrix (Fin r ⊕ Fin r) M' ℂ) (a : K' → ℂ) (a' : M' → ℂ),
          star a ⬝ᵥ (cross A A' *ᵥ a') = I * (star (A.toRows₁ *ᵥ a) ⬝ᵥ (A'.toRows₂ *ᵥ a') - star (A.toRows₂ *ᵥ a) ⬝ᵥ (A'.toRows₁ *ᵥ a')) := by
        intro K' M' _ _ A A' a a'
        rw [cross, smul_mulVec, dotProduct_smul, smul_eq_mul, sub_mulVec, dotProduct_sub, star_mulVec, star_mulVec, ← dotProduct_mulVec, ← dotProduct_mulVec, mulVec_mulVec,
          mulVec_mulVec]
      rw [hb, hb, hb, hb, hx, hy]
      simp only [star_add, add_dotProduct, dotProduct_add]
      ring
    have hdiag : star c1 ⬝ᵥ (cross P P *ᵥ c1) = ((σ * ∑ i, d i * ‖c1 i‖ ^ 2 : ℝ) : ℂ) := by
      rw [hpp, dotProduct, Finset.mul_sum]
      push_cast
      refine Finset.sum_congr rfl fun i _ => ?_
      rw [mulVec_diagonal, Pi.star_apply, star_def, ← Complex.conj_mul']
      push_cast
      ring
    have hyy : star y ⬝ᵥ y = ((∑ i, ‖y i‖ ^ 2 : ℝ) : ℂ) := by
      rw [dotProduct]
      push_cast
      refine Finset.sum_congr rfl fun i _ => ?_
      rw [Pi.star_apply, star_def, Complex.conj_mul']
    rw [hdiag, hpz, hzp, hzz, hxy] at key
    simp only [zero_mulVec, dotProduct_zero, add_zero, star_smul, smul_dotProduct, dotProduct_smul, smul_eq_mul, hyy, star_neg, star_mul', star_def, conj_I,
      Complex.conj_ofReal] at key
    have hk : ((-2 * σ * ∑ i, ‖y i‖ ^ 2 : ℝ) : ℂ) = ((σ * ∑ i, d i * ‖c1 i‖ ^ 2 : ℝ) : ℂ) := by
      rw [← key]
      push_cast
      linear_combination (-2 * (σ : ℂ) * ∑ i, (‖y i‖ : ℂ) ^ 2) * I_mul_I
    have hk' : -2 * σ * ∑ i, ‖y i‖ ^ 2 = σ * ∑ i, d i * ‖c1 i‖ ^ 2 := by exact_mod_cast hk
    have hk2 : ∑ i, d i * ‖c1 i‖ ^ 2 = -2 * ∑ i, ‖y i‖ ^ 2 := by linear_combination (-σ) * hk' - (∑ i, d i * ‖c1 i‖ ^ 2 + 2 * ∑ i, ‖y i‖ ^ 2) * hσ
    have n1 : 0 ≤ ∑ i, ‖y i‖ ^ 2 := Finset.sum_nonneg fun i _ => by positivity
    have n2 : 0 ≤ ∑ i, d i * ‖c1 i‖ ^ 2 := Finset.sum_nonneg fun i _ => mul_nonneg (hd i).le (by positivity)
    have z1 : ∑ i, ‖y i‖ ^ 2 = 0 := by linarith
    have z2 : ∑ i, d i * ‖c1 i‖ ^ 2 = 0 := by linarith
    have hy0 : y = 0 := by
      ext i
      have := (Finset.sum_eq_zero_iff_of_nonneg fun i _ => by positivity).mp z1 i (Finset.mem_univ i)
      exact norm_eq_zero.mp (pow_eq_zero_iff (by norm_num) |>.mp this)
    have hc10 : c1 = 0 := by
      ext i
      have := (Finset.sum_eq_zero_iff_of_nonneg fun i _ => mul_nonneg (hd i).le (by positivity)).mp z2 i (Finset.mem_univ i)
      have := (mul_eq_zero.mp this).resolve_left (hd i).ne'
      exact norm_eq_zero.mp (pow_eq_zero_iff (by norm_num) |>.mp this)
    have hx0 : x = 0 := by rw [hxy, hy0, smul_zero]
    have hc20 : c2 = 0 := by
      refine hz c2 ?_
      rw [hx, hc10, mulVec_zero, zero_add] at hx0
      rw [hy, hc10, mulVec_zero, zero_add] at hy0
      ext (i | i)
      · exact congrFun hx0 i
      · exact congrFun hy0 i
    rw [hcc, hc10, hc20]
    ext (i | i) <;> rfl
  have hinj : Function.Injective B.mulVecLin := by
    rw [← LinearMap.ker_eq_bot, LinearMap.ker_eq_bot']
    intro c hc
    exact hB c hc
  have := LinearMap.finrank_le_finrank_of_injective hinj
  simpa [Module.finrank_fintype_fun_eq_card] using this

open Classical in
/-- The decaying modes. -/
theorem evan_block {L : Linsys n} (hr : RegularPencil L.a (L.b.getD 1)) {s : Eig L.r} (hs : EigOk L.a (L.b.getD 1) s) :
    ∃ (k : ℕ) (z : Matrix (Fin L.r ⊕ Fin L.r) (Fin k) ℂ) (E : Matrix (Fin k) (Fin k) ℂ), k = (Finset.univ.filter fun i => ‖s.beta i‖ < ‖s.alpha i‖).card ∧
      zᴴ * z = 1 ∧ (∀ i j, j < i → E i j = 0) ∧ (∀ i, ‖E i i‖ < 1) ∧ L.Pencil z E 1 := by
  let sel1 : Fin (L.r + L.r) → Bool := fun i => decide (‖s.beta i‖ < ‖s.alpha i‖)
  have a1 : ∀ i, sel1 i = true → s.alpha i ≠ 0 := by
    intro i hi h0
    have := of_decide_eq_true hi
    rw [h0, norm_zero] at this
    exact absurd this (not_lt.mpr (norm_nonneg _))
  obtain ⟨u1, p1, _⟩ := deflate (hs.ordSchur hr sel1) (selected_le sel1) le_rfl
  obtain ⟨E1, t1, d1, q1⟩ := p1 a1
  refine ⟨_, _, E1, ?_, u1, t1, ?_, q1⟩
  · rw [selected_card]
    simp [sel1]
  · intro i
    obtain ⟨j, hj, hj'⟩ := d1 i
    rw [hj', norm_div]
    exact (div_lt_one (norm_pos_iff.mpr (a1 j hj))).mpr (of_decide_eq_true hj)

theorem cross_star {K M : Type} (Z : Matrix (Fin r ⊕ Fin r) K ℂ) (W : Matrix (Fin r ⊕ Fin r) M ℂ) : cross W Z = (cross Z W)ᴴ := by
  rw [cross, cross, conjTranspose_smul, conjTranspose_sub, conjTranspose_mul, conjTranspose_mul, conjTranspose_conjTranspose, conjTranspose_conjTranspose,
    star_def, conj_I, neg_smul, ← smul_neg, neg_sub]

/-- No current between decaying modes, or between decaying and propagating modes. -/
theorem cross_evan {h hop : Matrix (Fin n) (Fin n) ℂ} (hh : hᴴ = h) {L : Linsys n} {u : Matrix (Fin n) (Fin L.r) ℂ} (hf : Faithful h hop L u) {N k : ℕ}
    {P : Matrix (Fin L.r ⊕ Fin L.r) (Fin N) ℂ} {μ : Fin N → ℂ} (hμ : ∀ i, ‖μ i‖ = 1) (hp : L.Pencil P 1 (diagonal μ)) {z : Matrix (Fin L.r ⊕ Fin L.r) (Fin k) ℂ}
    {E : Matrix (Fin k) (Fin k) ℂ} (hE : ∀ i j, j < i → E i j = 0) (dec : ∀ i, ‖E i i‖ < 1) (hz : L.Pencil z E 1) : cross P z = 0 ∧ cross z P = 0 ∧ cross z z = 0 := by
  have one_tri : ∀ {k : ℕ} (i j : Fin k), j < i → (1 : Matrix (Fin k) (Fin k) ℂ) i j = 0 := fun i j hij => one_apply_ne (ne_of_gt hij)
  have xpe : cross P z = 0 := by
    refine stein_zero one_tri (fun i j hij => diagonal_apply_ne _ (ne_of_gt hij)) hE one_tri (cross_conserved hh hf hp hz) ?_
    intro i j h6
    rw [one_apply_eq, one_apply_eq, star_one, one_mul, mul_one, diagonal_apply_eq] at h6
    have := congrArg norm h6
    rw [norm_star, hμ] at this
    exact absurd this (ne_of_lt (dec j))
  refine ⟨xpe, by rw [cross_star P z, xpe, conjTranspose_zero], ?_⟩
  refine stein_zero hE one_tri hE one_tri (cross_conserved hh hf hz hz) ?_
  intro i j h6
  rw [one_apply_eq, one_apply_eq, star_one, one_mul] at h6
  have := congrArg norm h6
  rw [norm_one, norm_mul, norm_star] at this
  have x1 := dec i
  have x2 := dec j
  have x3 := norm_nonneg (E i i)
  nlinarith

/-- The current of Bloch waves that are orthogonal at equal momentum with respect to the velocity operator. -/
theorem cross_bloch {h hop : Matrix (Fin n) (Fin n) ℂ} (hh : hᴴ = h) {L : Linsys n} {u : Matrix (Fin n) (Fin L.r) ℂ} (hf : Faithful h hop L u) {N : ℕ}
    {lam : Fin N → ℂ} {full : Matrix (Fin n) (Fin N) ℂ} {vel : Fin N → ℝ} (hu : ∀ i, ‖lam i‖ = 1) (hb : ∀ i, IsBloch h hop (lam i) (full.col i))
    (hv : ∀ i j, lam i = lam j → star (full.col i) ⬝ᵥ (velMu hop (lam i) *ᵥ full.col j) = if i = j then (vel i : ℂ) else 0) :
    ∃ P : Matrix (Fin L.r ⊕ Fin L.r) (Fin N) ℂ, L.Pencil P 1 (diagonal lam) ∧ cross P P = diagonal fun i => (vel i : ℂ) := by
  let P : Matrix (Fin L.r ⊕ Fin L.r) (Fin N) ℂ := of fun x i => Sum.elim (L.vᴴ *ᵥ full.col i) ((lam i)⁻¹ • (uᴴ *ᵥ full.col i)) x
  have hlink : ∀ i, Link h hop u L.v (lam i) (P.col i) (full.col i) := fun i => ⟨rfl, hb i⟩
  have hp : L.Pencil P 1 (diagonal lam) := by
    rw [pencil_iff_cols]
    refine ⟨_, rfl, ?_⟩
    rw [Matrix.mul_one, ← Matrix.mul_assoc]
    ext x i
    have := congrFun ((solution_iff_getD L _ _).mp ((link_iff hf (unit_ne (hu i)) _ _).mp (hlink i)).1) x
    rw [Matrix.mul_diagonal]
    refine Eq.trans this ?_
    rw [Pi.smul_apply, smul_eq_mul, mul_comm]
    rfl
  refine ⟨P, hp, ?_⟩
  have hcons := cross_conserved hh hf hp hp
  rw [conjTranspose_one, Matrix.one_mul, Matrix.mul_one, diagonal_conjTranspose] at hcons
  ext i j
  by_cases hij : lam i = lam j
  · have key := velOpMat_eq (k := 2) (hu i) hf.fact (psi := P.submatrix id ![i, j]) (full := full.submatrix id ![i, j])
      (by
        intro a
        fin_cases a
        · exact hlink i
        · rw [hij]; exact hlink j)
    have k01 := congrFun (congrFun key 0) 1
    have hcur : cross P P i j = velOpMat (P.submatrix id ![i, j]) 0 1 := by
      have : cross P P = current P.toRows₁ P.toRows₂ := by rw [current_eq]; rfl
      rw [this]
      rfl
    rw [hcur, k01, diagonal_apply]
    refine Eq.trans ?_ (hv i j hij)
    rw [Matrix.mul_assoc]
    rfl
  · rw [diagonal_apply, if_neg (fun h0 => hij (by rw [h0]))]
    have h1 := congrFun (congrFun hcons i) j
    rw [Matrix.mul_diagonal, Matrix.diagonal_mul, Pi.star_apply, star_def] at h1
    have h2 : (starRingEnd ℂ) (lam i) = (lam i)⁻¹ := by
      have := congrArg (starRingEnd ℂ) (conj_inv_unit (hu i))
      rw [Complex.conj_conj] at this
      exact this.symm
    rw [h2] at h1
    have h3 : (lam i - lam j) * cross P P i j = 0 := by
      have h4 : lam i * cross P P i j = cross P P i j * lam j := by
        conv_lhs => rw [h1]
        rw [mul_assoc, mul_inv_cancel_left₀ (unit_ne (hu i))]
      rw [sub_mul, h4, mul_comm, sub_self]
    exact (mul_eq_zero.mp h3).resolve_left (sub_ne_zero.mpr hij)

open Classical in
/-- There are as many left-movers as right-movers. -/
theorem movers {h hop : Matrix (Fin n) (Fin n) ℂ} (hh : hᴴ = h) {L : Linsys n} {u : Matrix (Fin n) (Fin L.r) ℂ} (hf : Faithful h hop L u)
    (hr : RegularPencil L.a (L.b.getD 1)) {s : Eig L.r} (hs : EigOk L.a (L.b.getD 1) s) {N : ℕ} (hN : N = (Finset.univ.filter fun i => ‖s.alpha i‖ = ‖s.beta i‖).card)
    {lam : Fin N → ℂ} {full : Matrix (Fin n) (Fin N) ℂ} {vel : Fin N → ℝ} (hu : ∀ i, ‖lam i‖ = 1) (hb : ∀ i, IsBloch h hop (lam i) (full.col i))
    (hv : ∀ i j, lam i = lam j → star (full.col i) ⬝ᵥ (velMu hop (lam i) *ᵥ full.col j) = if i = j then (vel i : ℂ) else 0) (hne : ∀ i, vel i ≠ 0) :
    2 * (Finset.univ.filter fun i => vel i < 0).card = N := by
  have hcount := count_modes hh hf hr hs
  obtain ⟨k, z, E, hk, z1, hE, dec, hz⟩ := evan_block hr hs
  obtain ⟨P, hP, hPP⟩ := cross_bloch hh hf hu hb hv
  obtain ⟨x1, x2, x3⟩ := cross_evan hh hf hu hP hE dec hz
  have hzi : ∀ c, z *ᵥ c = 0 → c = 0 := by
    intro c hc
    have := congrArg (zᴴ *ᵥ ·) hc
    simpa only [mulVec_mulVec, z1, one_mulVec, mulVec_zero] using this
  have bound : ∀ (σ : ℝ), σ * σ = 1 → Fintype.card {i // 0 < σ * vel i} + k ≤ L.r := by
    intro σ hσ
    let Q : Matrix (Fin L.r ⊕ Fin L.r) {i // 0 < σ * vel i} ℂ := P.submatrix id Subtype.val
    have := half_bound (P := Q) (Z := z) (d := fun i => σ * vel i.1) hσ (fun i => i.2) ?_ ?_ ?_ x3 hzi
    · simpa using this
    · ext i j
      have h1 : cross Q Q i j = cross P P i.1 j.1 := rfl
      rw [h1, hPP, diagonal_apply, diagonal_apply]
      simp only [Subtype.val_inj, ← mul_assoc, hσ, one_mul]
    · ext i j
      exact congrFun (congrFun x1 i.1) j
    · ext i j
      exact congrFun (congrFun x2 i) j.1
  have b1 := bound (-1) (by norm_num)
  have b2 := bound 1 (by norm_num)
  rw [Fintype.card_subtype] at b1 b2
  simp only [neg_mul, one_mul, Left.neg_pos_iff] at b1 b2
  have hsum : (Finset.univ.filter fun i => vel i < 0).card + (Finset.univ.filter fun i => 0 < vel i).card = N := by
    have := Finset.card_filter_add_card_filter_not (s := (Finset.univ : Finset (Fin N))) (fun i => vel i < 0)
    rw [Finset.card_univ, Fintype.card_fin] at this
    have h1 : (Finset.univ.filter fun i => 0 < vel i) = Finset.univ.filter fun i => ¬ vel i < 0 := by
      ext i
      simp only [Finset.mem_filter, Finset.mem_univ, true_and, not_lt]
      exact ⟨le_of_lt, fun h => lt_of_le_of_ne h (hne i).symm⟩
    rw [h1]
    exact this
  omega

/-- **C113**: the only error that `compute_block_modes` can raise, once the linear system is set up, is due to a Bloch wave whose velocity
(an eigenvalue of the velocity operator in the space of the Bloch waves with this momentum) is below the tolerance. -/
theorem C113_error (e : BlockNum n) {h hop : Matrix (Fin n) (Fin n) ℂ} (he : e.Ok hop) (hh : h.IsHermitian) (hc : CutExact e.lin hop) (hb : NoBandEdge h hop)
    (hfl : NoFlatBand h hop) {stab : Option (Option Bool × Bool)} (hst : ∀ s0, stab = some (s0, true) → NoInfinite h hop)
    (hsep : ∀ L, setupLinsys e.lin h hop stab = .ok L → WellSeparated e L) (junk : (N : ℕ) → Fin N → ℝ) {x : LErr}
    (hx : computeBlockModes e ⟨none, none, none⟩ junk h hop stab = .error x) : setupLinsys e.lin h hop stab = .error x ∨
      x = .runtimeError ∧ ∃ (k v : ℝ) (ψ : Fin n → ℂ), IsBloch h hop (cexp (-(I * k))) ψ ∧ star ψ ⬝ᵥ ψ = 1 ∧
        (∀ φ, IsBloch h hop (cexp (-(I * k))) φ → star φ ⬝ᵥ (velK hop k *ᵥ ψ) = v * (star φ ⬝ᵥ ψ)) ∧ |v| < e.mode.velEps := by
  rw [computeBlockModes] at hx
  split at hx
  · cases hx
    exact .inl (by assumption)
  rename_i L hL
  right
  obtain ⟨hg, hsp⟩ := hsep L hL
  obtain ⟨u, hf⟩ := setup_faithful e.lin he.lin hL hc hst
  have hin := propInput_block hh hf hb hfl he.eig hg
  obtain ⟨hs, h1, h2, h3, h4, h5⟩ := unified_spec he.eig L.a L.b
  have hr := regular_of_flat hf hfl
  have hne : ∀ i, ¬((e.eig.eig L.a L.b).alpha i = 0 ∧ (e.eig.eig L.a L.b).beta i = 0) := alpha_beta_ne hr (hs.ordSchur hr fun _ => true)
  rw [blockOf] at hx
  split at hx
  · rename_i y hy
    cases hx
    obtain ⟨full, vel, b1, b2, b3, b5, b4⟩ := C109_error e.lin he.lin hL hc hst e.mode he.mode hin hsp (junk _)
    obtain ⟨hx', h6⟩ := (b4 x).mp hy
    refine ⟨hx', ?_⟩
    have h7 : ∃ i, |vel i| < e.mode.velEps := by
      by_contra h8
      have h9 : ∀ i, vel i ≠ 0 := by
        intro i h0
        apply h8
        refine ⟨i, ?_⟩
        rw [h0, abs_zero]
        exact he.mode.velEps
      refine absurd (movers hh hf hr hs ?_ hin.unit b1 b3 h9) (h6.resolve_left h8)
      rw [selected_card]
      simp only [h2, fun i => (classify he.eig.eps hg hne i).2]
    obtain ⟨i, hi⟩ := h7
    obtain ⟨k, hk⟩ : ∃ k : ℝ, ((unifiedEigenproblem e.eig L.a L.b).ev ∘ (selected (unifiedEigenproblem e.eig L.a L.b).propselect).get) i = cexp (-(I * k)) :=
      ⟨_, (unit_exp (hin.unit i)).symm⟩
    refine ⟨k, vel i, full.col i, ?_, ?_, ?_, hi⟩
    · rw [← hk]; exact b1 i
    · rw [b2 i i rfl, if_pos rfl]
    · have := b5 i
      rw [hk] at this
      exact this
  · cases hx

end Kwant.Leads
