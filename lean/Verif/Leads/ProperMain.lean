import Verif.Leads.ProperSpec

/-!
C109, main theorems.
-/

set_option linter.unusedSectionVars false

namespace Kwant.Leads
open Matrix Complex

variable {n r : ℕ}

/-- A set of positions that contains all the positions before its elements. -/
theorem lower_card {N : ℕ} (s : Finset (Fin N)) (hs : ∀ i j, j ≤ i → i ∈ s → j ∈ s) (i : Fin N) : i ∈ s ↔ i.val < s.card := by
  constructor
  · intro hi
    have : Finset.Iic i ⊆ s := fun j hj => hs i j (Finset.mem_Iic.mp hj) hi
    have := Finset.card_le_card this
    rw [Fin.card_Iic] at this
    exact this
  · intro hi
    by_contra hc
    have : s ⊆ Finset.Iio i := by
      intro j hj
      rw [Finset.mem_Iio]
      by_contra hji
      exact hc (hs j i (not_lt.mp hji) hj)
    have := Finset.card_le_card this
    rw [Fin.card_Iio] at this
    omega

theorem Good.perm {h hop : Matrix (Fin n) (Fin n) ℂ} {u v : Matrix (Fin n) (Fin r) ℂ} {N : ℕ} {lam : Fin N → ℂ} {psi : Matrix (Fin r ⊕ Fin r) (Fin N) ℂ}
    {full : Matrix (Fin n) (Fin N) ℂ} {vel : Fin N → ℝ} (hg : Good h hop u v lam psi full vel) (σ : Equiv.Perm (Fin N)) :
    Good h hop u v (lam ∘ σ) (psi.submatrix id σ) (full.submatrix id σ) (vel ∘ σ) := by
  refine ⟨fun i => hg.link (σ i), ?_, ?_, ?_⟩
  · intro i j hij
    have := hg.orth (σ i) (σ j) hij
    simp only [σ.injective.eq_iff] at this
    exact this
  · intro i j hij
    have := hg.diag (σ i) (σ j) hij
    simp only [σ.injective.eq_iff] at this
    exact this
  · intro μ ψ hμ hψ
    obtain ⟨c, hc, hx⟩ := hg.complete μ ψ hμ hψ
    refine ⟨c ∘ σ, fun i hi => hc (σ i) hi, ?_⟩
    rw [hx]
    ext x
    simp only [mulVec, dotProduct, submatrix_apply, id_eq, Function.comp_apply]
    exact (Equiv.sum_comp σ fun j => full x j * c j).symm

theorem cexp_arg {z : ℂ} (hz : ‖z‖ = 1) : cexp (-(I * ((-z.arg : ℝ) : ℂ))) = z := by
  have := Complex.norm_mul_exp_arg_mul_I z
  rw [hz, Complex.ofReal_one, one_mul] at this
  conv_rhs => rw [← this]
  congr 1
  push_cast
  ring

theorem norm_cexp_mom (k : ℝ) : ‖cexp (-(I * k))‖ = 1 := by
  rw [show -(I * (k : ℂ)) = ((-k : ℝ) : ℂ) * I by push_cast; ring, Complex.norm_exp_ofReal_mul_I]

theorem velK_eq (hop : Matrix (Fin n) (Fin n) ℂ) (k : ℝ) : velK hop k = velMu hop (cexp (-(I * k))) := rfl

/-- The order of the keys. -/
theorem sortKey_le {N : ℕ} {vel mom : Fin N → ℝ} {trim : Fin N → ℕ} {i j : Fin N} (hk : sortKey vel mom trim i ≤ sortKey vel mom trim j) :
    (vel j < 0 → vel i < 0 ∨ False) ∧ (vel i < 0 → vel j < 0 → mom i < mom j ∨ (mom i = mom j ∧ (vel i < vel j ∨ vel i = vel j ∧ trim i ≤ trim j))) ∧
    (0 < vel i → 0 < vel j → mom j < mom i ∨ (mom i = mom j ∧ (vel i < vel j ∨ vel i = vel j ∧ trim i ≤ trim j))) := by
  rw [sortKey, sortKey, Prod.Lex.toLex_le_toLex] at hk
  dsimp only at hk
  rw [Prod.Lex.toLex_le_toLex] at hk
  dsimp only at hk
  rw [Prod.Lex.toLex_le_toLex] at hk
  dsimp only at hk
  refine ⟨?_, ?_, ?_⟩
  · intro hj
    rw [sign_neg hj] at hk
    rcases lt_trichotomy (vel i) 0 with hi | hi | hi
    · exact .inl hi
    · rw [hi, sign_zero] at hk
      norm_num at hk
    · rw [sign_pos hi] at hk
      norm_num at hk
  · intro hi hj
    rw [sign_neg hi, sign_neg hj] at hk
    rcases hk with hk | ⟨_, hk⟩
    · exact absurd hk (lt_irrefl _)
    · simpa using hk
  · intro hi hj
    rw [sign_pos hi, sign_pos hj] at hk
    rcases hk with hk | ⟨_, hk⟩
    · exact absurd hk (lt_irrefl _)
    · rcases hk with hk | ⟨h1, hk⟩
      · left
        simpa using hk
      · right
        refine ⟨by simpa using h1, hk⟩

/-- The last part of `make_proper_modes`, for given wave functions. -/
theorem finish {h hop : Matrix (Fin n) (Fin n) ℂ} {L : Linsys n} {u : Matrix (Fin n) (Fin L.r) ℂ} (hf : Faithful h hop L u) (e : ModeNum n) (he : e.Ok) {N : ℕ}
    {lam : Fin N → ℂ} (hu : ∀ i, ‖lam i‖ = 1) {vel : Fin N → ℝ} {trim : Fin N → ℕ} (hv : velCheck e vel = true)
    {mom : Fin N → ℝ} (hmom : mom = fun i => -(lam i).arg) {σ : Equiv.Perm (Fin N)} (hσ : σ = Tuple.sort (sortKey vel mom trim))
    {psi : Matrix (Fin L.r ⊕ Fin L.r) (Fin N) ℂ} {full : Matrix (Fin n) (Fin N) ℂ} (hg : Good h hop u L.v (lam ∘ σ) psi full (vel ∘ σ)) :
    ProperSpec h hop L (Proper.mk (of fun i j => psi i j / ((Real.sqrt |(vel ∘ σ) j| : ℝ) : ℂ)) (of fun i j => full i j / ((Real.sqrt |(vel ∘ σ) j| : ℝ) : ℂ))
      (vel ∘ σ) (mom ∘ σ)) := by
  rw [velCheck, decide_eq_true_eq] at hv
  obtain ⟨hv1, hv2⟩ := hv
  have hv0 : ∀ i, (vel ∘ σ) i ≠ 0 := by
    intro i h0
    refine hv1 (σ i) ?_
    have : vel (σ i) = 0 := h0
    rw [this, abs_zero]
    exact he.velEps
  have hexp : ∀ i, cexp (-(I * ((mom ∘ σ) i : ℝ))) = (lam ∘ σ) i := by
    intro i
    rw [hmom]
    exact cexp_arg (hu (σ i))
  have hu' : ∀ i, ‖(lam ∘ σ) i‖ = 1 := fun i => hu (σ i)
  have hsq : ∀ i, 0 < Real.sqrt |(vel ∘ σ) i| := fun i => Real.sqrt_pos.mpr (abs_pos.mpr (hv0 i))
  set w : Fin N → ℂ := fun j => (((Real.sqrt |(vel ∘ σ) j| : ℝ) : ℂ))⁻¹ with hw
  have hpsi : ∀ i, (of fun a j => psi a j / ((Real.sqrt |(vel ∘ σ) j| : ℝ) : ℂ) : Matrix (Fin L.r ⊕ Fin L.r) (Fin N) ℂ).col i = w i • psi.col i := by
    intro i
    ext a
    simp only [col_apply, of_apply, Pi.smul_apply, smul_eq_mul, hw]
    rw [div_eq_mul_inv, mul_comm]
  have hfull : ∀ i, (of fun a j => full a j / ((Real.sqrt |(vel ∘ σ) j| : ℝ) : ℂ) : Matrix (Fin n) (Fin N) ℂ).col i = w i • full.col i := by
    intro i
    ext a
    simp only [col_apply, of_apply, Pi.smul_apply, smul_eq_mul, hw]
    rw [div_eq_mul_inv, mul_comm]
  have hww : ∀ i, (starRingEnd ℂ) (w i) * w i = ((1 / |(vel ∘ σ) i| : ℝ) : ℂ) := by
    intro i
    simp only [hw, map_inv₀, Complex.conj_ofReal]
    rw [← mul_inv, ← Complex.ofReal_mul, Real.mul_self_sqrt (abs_nonneg _)]
    push_cast
    rw [one_div]
  have hlink : ∀ i, Link h hop u L.v ((lam ∘ σ) i) (w i • psi.col i) (w i • full.col i) := fun i => Link.smul (unit_ne (hu' i)) (hg.link i) _
  have hmono := Tuple.monotone_sort (sortKey vel mom trim)
  rw [← hσ] at hmono
  have hlam : ∀ i j, (mom ∘ σ) i = (mom ∘ σ) j → (lam ∘ σ) i = (lam ∘ σ) j := by
    intro i j hij
    rw [← hexp i, ← hexp j, hij]
  have hlow : ∀ i j, j ≤ i → (vel ∘ σ) i < 0 → (vel ∘ σ) j < 0 := by
    intro i j hij hi
    exact ((sortKey_le (hmono hij)).1 hi).resolve_right id
  refine ⟨?_, ?_, ?_, ?_, hv0, ?_, ?_, ?_, ?_, ?_, ?_⟩
  · intro i
    change -Real.pi ≤ mom (σ i) ∧ mom (σ i) < Real.pi
    rw [hmom]
    dsimp only
    have h1 := Complex.neg_pi_lt_arg (lam (σ i))
    have h2 := Complex.arg_le_pi (lam (σ i))
    constructor <;> linarith
  · intro i
    dsimp only
    rw [hexp, hpsi]
    exact ((link_iff hf (unit_ne (hu' i)) _ _).mp (hlink i)).1
  · intro i
    dsimp only
    rw [hexp, hpsi, hfull]
    exact ((link_iff hf (unit_ne (hu' i)) _ _).mp (hlink i)).2.symm
  · intro i
    dsimp only
    rw [hexp, hfull]
    exact (hlink i).2
  · intro i j hij
    have := hg.orth i j (hlam i j hij)
    dsimp only
    rw [hfull, hfull, star_smul, smul_dotProduct, dotProduct_smul, this]
    by_cases hij2 : i = j
    · subst hij2
      simp only [if_true, smul_eq_mul, mul_one]
      exact hww i
    · simp [if_neg hij2]
  · intro i j hij
    have := hg.diag i j (hlam i j hij)
    dsimp only
    rw [hfull, hfull, velK_eq, hexp, mulVec_smul, star_smul, smul_dotProduct, dotProduct_smul, this]
    by_cases hij2 : i = j
    · subst hij2
      simp only [if_true, smul_eq_mul]
      rw [← mul_assoc]
      refine (congrArg (· * (((vel ∘ σ) i : ℝ) : ℂ)) (hww i)).trans ?_
      push_cast
      ring
    · simp [if_neg hij2]
  · intro k ψ hψ
    obtain ⟨c, hc, hx⟩ := hg.complete _ ψ (norm_cexp_mom k) hψ
    refine ⟨fun i => ((Real.sqrt |(vel ∘ σ) i| : ℝ) : ℂ) * c i, ?_, ?_⟩
    · intro i hi
      dsimp only at hi
      rw [hexp] at hi
      dsimp only
      rw [hc i hi, mul_zero]
    · rw [hx]
      ext x
      simp only [mulVec, dotProduct, of_apply]
      refine Finset.sum_congr rfl fun i _ => ?_
      have : ((Real.sqrt |(vel ∘ σ) i| : ℝ) : ℂ) ≠ 0 := Complex.ofReal_ne_zero.mpr (hsq i).ne'
      rw [← mul_assoc, div_mul_cancel₀ _ this]
  · intro i
    have key := lower_card (Finset.univ.filter fun i => (vel ∘ σ) i < 0) (by
      intro i j hij hi
      rw [Finset.mem_filter] at hi ⊢
      exact ⟨Finset.mem_univ _, hlow i j hij hi.2⟩) i
    rw [Finset.mem_filter] at key
    have hcard : (Finset.univ.filter fun i => (vel ∘ σ) i < 0).card = (Finset.univ.filter fun i => vel i < 0).card := by
      refine Finset.card_bij (fun i _ => σ i) ?_ ?_ ?_
      · intro a ha
        rw [Finset.mem_filter] at ha ⊢
        exact ⟨Finset.mem_univ _, ha.2⟩
      · intro a _ b _ hab
        exact σ.injective hab
      · intro b hb
        refine ⟨σ.symm b, ?_, by simp⟩
        rw [Finset.mem_filter] at hb ⊢
        exact ⟨Finset.mem_univ _, by simpa using hb.2⟩
    rw [hcard] at key
    constructor
    · intro hi
      have := key.mp ⟨Finset.mem_univ _, hi⟩
      omega
    · intro hi
      exact (key.mpr (by omega)).2
  · intro i j hij hi hj
    rcases (sortKey_le (hmono hij.le)).2.1 hi hj with h1 | ⟨h1, h2⟩
    · exact .inl h1
    · refine .inr ⟨h1, ?_⟩
      rcases h2 with h2 | h2
      · exact h2.le
      · exact h2.1.le
  · intro i j hij hi hj
    rcases (sortKey_le (hmono hij.le)).2.2 hi hj with h1 | ⟨h1, h2⟩
    · exact .inl h1
    · refine .inr ⟨h1, ?_⟩
      rcases h2 with h2 | h2
      · exact h2.le
      · exact h2.1.le

theorem loop_good' {h hop : Matrix (Fin n) (Fin n) ℂ} {L : Linsys n} {u : Matrix (Fin n) (Fin L.r) ℂ} (e : ModeNum n) (he : e.Ok) (hf : Faithful h hop L u) {N : ℕ}
    {lam : Fin N → ℂ} {psi : Matrix (Fin L.r ⊕ Fin L.r) (Fin N) ℂ} (hi : PropInput L lam psi) (hs : Separated e lam) {junk : Fin N → ℝ}
    {m : Modes n L.r N} (hm : runClusters e ⟨none, none, none⟩ (clusters e lam) ⟨psi, L.extract psi lam, lam, junk, fun _ => 0⟩ = .ok m) :
    Good h hop u L.v lam m.psi m.full m.vel ∧ m.lam = lam ∧ m.trim = fun _ => 0 := by
  rcases Nat.eq_zero_or_pos N with h0 | h0
  · subst h0
    refine ⟨⟨fun i => i.elim0, fun i => i.elim0, fun i => i.elim0, ?_⟩, funext fun i => i.elim0, funext fun i => i.elim0⟩
    intro μ ψ hμ hψ
    have hμ0 := unit_ne hμ
    have hl : Link h hop u L.v μ (Sum.elim (L.vᴴ *ᵥ ψ) (μ⁻¹ • (uᴴ *ᵥ ψ))) ψ := ⟨rfl, hψ⟩
    obtain ⟨c0, hc0, hx⟩ := hi.complete μ _ hμ ((link_iff hf hμ0 _ _).mp hl).1
    have hc : psi *ᵥ c0 = 0 := by
      ext x
      simp [mulVec, dotProduct]
    rw [hx, hc] at hl
    refine ⟨0, fun _ _ => rfl, ?_⟩
    rw [mulVec_zero]
    exact Link.zero hf hμ0 hl
  · have : NeZero N := ⟨h0.ne'⟩
    exact loop_good e he hf hi hs hm

/-- C109: if the eigenvalue solver returns, for each eigenvalue on the unit circle, a basis of its eigenspace, then the propagating modes are as documented. -/
theorem C109_modes (en : Numerics n) {h hop : Matrix (Fin n) (Fin n) ℂ} (hen : en.Ok hop) {stab : Option (Option Bool × Bool)} {L : Linsys n}
    (hL : setupLinsys en h hop stab = .ok L) (hc : CutExact en hop) (hst : ∀ s0, stab = some (s0, true) → NoInfinite h hop)
    (e : ModeNum n) (he : e.Ok) {N : ℕ} {lam : Fin N → ℂ} {psi : Matrix (Fin L.r ⊕ Fin L.r) (Fin N) ℂ} (hi : PropInput L lam psi) (hs : Separated e lam)
    (junk : Fin N → ℝ) {o : Proper n L.r N} (ho : makeProperModes e ⟨none, none, none⟩ junk lam psi L.extract = .ok o) : ProperSpec h hop L o := by
  obtain ⟨u, hf⟩ := setup_faithful en hen hL hc hst
  rw [makeProperModes] at ho
  split at ho
  · cases ho
  rename_i m hm
  split at ho
  · rename_i hv
    obtain ⟨g1, g2, g3⟩ := loop_good' e he hf hi hs hm
    cases ho
    rw [g2]
    exact finish hf e he hi.unit hv (mom := fun i => -(lam i).arg) rfl rfl (Good.perm g1 _)
  · cases ho

theorem star_combination {N : ℕ} (a : Matrix (Fin n) (Fin N) ℂ) (c : Fin N → ℂ) (x : Fin n → ℂ) : star (a *ᵥ c) ⬝ᵥ x = ∑ j, star (c j) * (star (a.col j) ⬝ᵥ x) := by
  rw [star_mulVec, ← dotProduct_mulVec]
  rfl

/-- C109: an error is raised exactly if a mode of vanishing velocity was found or the numbers of left- and right-movers differ; the velocities are those of the
modes that diagonalize the velocity operator. -/
theorem C109_error (en : Numerics n) {h hop : Matrix (Fin n) (Fin n) ℂ} (hen : en.Ok hop) {stab : Option (Option Bool × Bool)} {L : Linsys n}
    (hL : setupLinsys en h hop stab = .ok L) (hc : CutExact en hop) (hst : ∀ s0, stab = some (s0, true) → NoInfinite h hop)
    (e : ModeNum n) (he : e.Ok) {N : ℕ} {lam : Fin N → ℂ} {psi : Matrix (Fin L.r ⊕ Fin L.r) (Fin N) ℂ} (hi : PropInput L lam psi) (hs : Separated e lam)
    (junk : Fin N → ℝ) : ∃ (full : Matrix (Fin n) (Fin N) ℂ) (vel : Fin N → ℝ),
    (∀ i, IsBloch h hop (lam i) (full.col i)) ∧ (∀ i j, lam i = lam j → star (full.col i) ⬝ᵥ full.col j = if i = j then 1 else 0) ∧
    (∀ i j, lam i = lam j → star (full.col i) ⬝ᵥ (velMu hop (lam i) *ᵥ full.col j) = if i = j then (vel i : ℂ) else 0) ∧
    (∀ i φ, IsBloch h hop (lam i) φ → star φ ⬝ᵥ (velMu hop (lam i) *ᵥ full.col i) = vel i * (star φ ⬝ᵥ full.col i)) ∧
    ∀ x, makeProperModes e ⟨none, none, none⟩ junk lam psi L.extract = .error x ↔
      x = .runtimeError ∧ ((∃ i, |vel i| < e.velEps) ∨ 2 * (Finset.univ.filter fun i => vel i < 0).card ≠ N) := by
  obtain ⟨u, hf⟩ := setup_faithful en hen hL hc hst
  obtain ⟨m, hm⟩ := runClusters_none e (clusters e lam) ⟨psi, L.extract psi lam, lam, junk, fun _ => 0⟩
  obtain ⟨g1, g2, g3⟩ := loop_good' e he hf hi hs hm
  refine ⟨m.full, m.vel, fun i => (g1.link i).2, g1.orth, g1.diag, ?_, ?_⟩
  · intro i φ hφ
    obtain ⟨c, hc, hx⟩ := g1.complete (lam i) φ (hi.unit i) hφ
    rw [hx, star_combination, star_combination, Finset.mul_sum]
    refine Finset.sum_congr rfl fun j _ => ?_
    by_cases hj : lam j = lam i
    · have a1 := g1.diag j i hj
      have a2 := g1.orth j i hj
      rw [hj] at a1
      rw [a1, a2]
      by_cases hji : j = i
      · subst hji
        rw [if_pos rfl, if_pos rfl]
        ring
      · rw [if_neg hji, if_neg hji]
        ring
    · rw [hc j hj, star_zero, zero_mul, zero_mul, mul_zero]
  intro x
  rw [makeProperModes, hm]
  dsimp only
  by_cases hv : velCheck e m.vel = true
  · rw [if_pos hv]
    rw [velCheck, decide_eq_true_eq] at hv
    constructor
    · intro h0; cases h0
    · rintro ⟨_, ⟨i, h1⟩ | h1⟩
      · exact absurd h1 (hv.1 i)
      · exact absurd hv.2 h1
  · rw [if_neg hv]
    rw [velCheck, decide_eq_true_eq] at hv
    constructor
    · intro h0
      cases h0
      refine ⟨rfl, ?_⟩
      by_contra hcon
      push Not at hcon
      exact hv ⟨fun i => not_lt.mpr (hcon.1 i), hcon.2⟩
    · rintro ⟨rfl, _⟩
      rfl

/-- C109: for a Hermitian lead, the modes carry unit current, in the direction given by the sign of the velocity, and there is no current between them. -/
theorem C109_current {h hop : Matrix (Fin n) (Fin n) ℂ} (hh : h.IsHermitian) (en : Numerics n) (hen : en.Ok hop) {stab : Option (Option Bool × Bool)} {L : Linsys n}
    (hL : setupLinsys en h hop stab = .ok L) (hc : CutExact en hop) (hst : ∀ s0, stab = some (s0, true) → NoInfinite h hop) {N : ℕ} {o : Proper n L.r N}
    (ho : ProperSpec h hop L o) : current o.psi.toRows₁ o.psi.toRows₂ = diagonal fun i => ((o.velocities i / |o.velocities i| : ℝ) : ℂ) := by
  obtain ⟨u, hf⟩ := setup_faithful en hen hL hc hst
  set μ : Fin N → ℂ := fun i => cexp (-(I * o.momenta i)) with hμ
  have hμ1 : ∀ i, ‖μ i‖ = 1 := fun i => norm_cexp_mom _
  have hp : L.Pencil (fromRows o.psi.toRows₁ o.psi.toRows₂) (1 : Matrix (Fin N) (Fin N) ℂ) (diagonal μ) := by
    rw [pencil_iff_cols]
    refine ⟨_, rfl, ?_⟩
    rw [fromRows_toRows, Matrix.mul_one, ← Matrix.mul_assoc]
    ext x i
    have := congrFun ((solution_iff_getD L _ _).mp (ho.solution i)) x
    rw [Matrix.mul_diagonal]
    refine Eq.trans this ?_
    rw [Pi.smul_apply, smul_eq_mul, mul_comm]
    rfl
  have hcons := current_conserved hh hf hp
  rw [conjTranspose_one, Matrix.one_mul, Matrix.mul_one, diagonal_conjTranspose] at hcons
  have hlink : ∀ i, Link h hop u L.v (μ i) (o.psi.col i) (o.waveFunctions.col i) := fun i => (link_iff hf (unit_ne (hμ1 i)) _ _).mpr ⟨ho.solution i, (ho.wave i).symm⟩
  ext i j
  by_cases hij : μ i = μ j
  · -- equal momentum
    have hm : o.momenta i = o.momenta j := by
      have h1 := ho.range i
      have h2 := ho.range j
      obtain ⟨q, hq⟩ := Complex.exp_eq_exp_iff_exists_int.mp hij
      have hq' : o.momenta i = o.momenta j - q * (2 * Real.pi) := by
        have h5 : (-(I * (o.momenta i : ℂ))) = -(I * ((o.momenta j - q * (2 * Real.pi) : ℝ) : ℂ)) := by
          rw [hq]; push_cast; ring
        have h6 := mul_left_cancel₀ I_ne_zero (neg_injective h5)
        exact_mod_cast h6
      have hq0 : q = 0 := by
        by_contra hq0
        rcases lt_or_gt_of_ne hq0 with hlt | hgt
        · have : (q : ℝ) ≤ -1 := by exact_mod_cast Int.le_sub_one_of_lt hlt
          nlinarith [Real.pi_pos]
        · have : (1 : ℝ) ≤ q := by exact_mod_cast hgt
          nlinarith [Real.pi_pos]
      rw [hq', hq0]; simp
    have key := velOpMat_eq (k := 2) (hμ1 i) hf.fact (psi := o.psi.submatrix id ![i, j]) (full := o.waveFunctions.submatrix id ![i, j])
      (by
        intro a
        fin_cases a
        · exact hlink i
        · rw [hij]; exact hlink j)
    have k01 := congrFun (congrFun key 0) 1
    have hcur : current o.psi.toRows₁ o.psi.toRows₂ i j = velOpMat (o.psi.submatrix id ![i, j]) 0 1 := rfl
    rw [hcur, k01, diagonal_apply]
    refine Eq.trans ?_ (ho.velocity i j hm)
    rw [Matrix.mul_assoc]
    rfl
  · rw [diagonal_apply, if_neg (fun h0 => hij (by rw [h0]))]
    have h1 := congrFun (congrFun hcons i) j
    rw [Matrix.mul_diagonal, Matrix.diagonal_mul, Pi.star_apply, star_def] at h1
    have h2 : (starRingEnd ℂ) (μ i) = (μ i)⁻¹ := by
      have := congrArg (starRingEnd ℂ) (conj_inv_unit (hμ1 i))
      rw [Complex.conj_conj] at this
      exact this.symm
    rw [h2] at h1
    have h3 : (μ i - μ j) * current o.psi.toRows₁ o.psi.toRows₂ i j = 0 := by
      have h4 : μ i * current o.psi.toRows₁ o.psi.toRows₂ i j = current o.psi.toRows₁ o.psi.toRows₂ i j * μ j := by
        conv_lhs => rw [h1]
        rw [mul_assoc, mul_inv_cancel_left₀ (unit_ne (hμ1 i))]
      rw [sub_mul, h4, mul_comm, sub_self]
    exact (mul_eq_zero.mp h3).resolve_left (sub_ne_zero.mpr hij)

end Kwant.Leads
