import Verif.Leads.LeadSelf

/-!
C189: the modes that `modes` returns for a lead without conservation laws, with discrete symmetries.
-/

set_option linter.unusedSectionVars false

namespace Kwant.Leads
open Matrix Complex Filter

variable {n : ℕ}

/-! ### Specification -/

/-- The partners of the modes of a lead under its symmetries. -/
structure SymLead (sy : Symm n) {p : ℕ} (wf : Matrix (Fin n) (Fin p ⊕ Fin p) ℂ) (mom vel : Fin p ⊕ Fin p → ℝ) : Prop where
  /-- The outgoing modes are the time-reversed incoming modes. -/
  tr : ∀ U, sy.tr = some U → ∀ i, wf.col (.inr i) = U *ᵥ star (wf.col (.inl i)) ∧ vel (.inr i) = -vel (.inl i) ∧
    (mom (.inr i) = -mom (.inl i) ∨ (mom (.inr i) = -Real.pi ∧ mom (.inl i) = -Real.pi))
  /-- The outgoing modes are the chiral partners of the incoming modes. -/
  chiral : ∀ U, sy.tr = none → sy.chiral = some U → ∃ f : Equiv.Perm (Fin p), ∀ i, wf.col (.inr (f i)) = U *ᵥ wf.col (.inl i) ∧
    vel (.inr (f i)) = -vel (.inl i) ∧ mom (.inr (f i)) = mom (.inl i)
  /-- The particle-hole partner of a mode is a mode in the same direction, with the opposite momentum. -/
  ph : ∀ U, sy.tr = none → sy.ph = some U → ∀ η : ℝ, η = 1 ∨ η = -1 → U * conjM U = (η : ℂ) • (1 : Matrix (Fin n) (Fin n) ℂ) →
    (∀ i, ∃ j, ∃ τ : ℝ, (τ = 1 ∨ τ = η) ∧ U *ᵥ star (wf.col (.inl i)) = (τ : ℂ) • wf.col (.inl j) ∧ cexp (-(I * mom (.inl j))) = star (cexp (-(I * mom (.inl i))))) ∧
    (∀ i, ∃ j, ∃ τ : ℝ, (τ = 1 ∨ τ = η) ∧ U *ᵥ star (wf.col (.inr i)) = (τ : ℂ) • wf.col (.inr j) ∧ cexp (-(I * mom (.inr j))) = star (cexp (-(I * mom (.inr i)))))

/-! ### Proofs -/

theorem star_cexp_mom (x : ℝ) : star (cexp (-(I * x))) = cexp (-(I * (-x : ℝ))) := by
  have h1 : (starRingEnd ℂ) (cexp (-(I * x))) = cexp ((starRingEnd ℂ) (-(I * x))) := (Complex.exp_conj _).symm
  change (starRingEnd ℂ) (cexp (-(I * x))) = _
  rw [h1, map_neg, map_mul, conj_I, conj_ofReal]
  push_cast
  congr 1
  ring

theorem cexp_neg_pi : cexp (-(I * (-Real.pi : ℝ))) = -1 := by
  push_cast
  rw [mul_neg, neg_neg, mul_comm]
  exact Complex.exp_pi_mul_I

theorem star_mom_neg {x y : ℝ} (h : y = -x ∨ (y = -Real.pi ∧ x = -Real.pi)) : cexp (-(I * y)) = star (cexp (-(I * x))) := by
  rcases h with h | ⟨h1, h2⟩
  · rw [h, star_cexp_mom]
  · rw [h1, h2, cexp_neg_pi, star_neg, star_one]

/-- The modes of a block, in terms of `make_proper_modes`. -/
theorem block_sym (e : BlockNum n) {h hop : Matrix (Fin n) (Fin n) ℂ} (he : e.Ok hop) (hh : h.IsHermitian) (hc : CutExact e.lin hop) (hb : NoBandEdge h hop)
    (hfl : NoFlatBand h hop) {stab : Option (Option Bool × Bool)} (hst : ∀ s0, stab = some (s0, true) → NoInfinite h hop)
    (hsep : ∀ L, setupLinsys e.lin h hop stab = .ok L → WellSeparated e L) (junk : (N : ℕ) → Fin N → ℝ) {m : BlockModes n} {sy : Symm n} (hr : SymRelated sy h hop)
    (hbn : Benign e.mode sy h hop) (hm : computeBlockModes e sy junk h hop stab = .ok m) :
    ∃ o : Proper n m.r m.N, o.waveFunctions = m.waveFunctions ∧ o.momenta = m.momenta ∧ o.velocities = m.velocities ∧ (∀ i, -Real.pi ≤ o.momenta i ∧ o.momenta i < Real.pi) ∧
      (∀ i, o.velocities i < 0 ↔ 2 * i.val < m.N) ∧ SymModes sy o := by
  rw [computeBlockModes] at hm
  split at hm
  · cases hm
  rename_i L hL
  obtain ⟨hg, hsp⟩ := hsep L hL
  obtain ⟨u, hf⟩ := setup_faithful e.lin he.lin hL hc hst
  have hin := propInput_block hh hf hb hfl he.eig hg
  rw [blockOf] at hm
  split at hm
  · cases hm
  rename_i o ho
  obtain ⟨h1, h2⟩ := proper_of_benign e he hh hc hst hr hbn hL _ hin hsp ho
  cases hm
  exact ⟨o, rfl, rfl, rfl, h1.range, h1.halves, h2⟩

/-- The partner under particle-hole symmetry. -/
theorem ph_partner {U : Matrix (Fin n) (Fin n) ℂ} {r N : ℕ} {o : Proper n r N} (hrange : ∀ i, -Real.pi ≤ o.momenta i ∧ o.momenta i < Real.pi) (hp : ParticleHole U o)
    {η : ℝ} (hη : η = 1 ∨ η = -1) (hsq : U * conjM U = (η : ℂ) • (1 : Matrix (Fin n) (Fin n) ℂ)) (half : Fin (N / 2) → Fin N) (hh : half = firstHalf N ∨ half = secondHalf N)
    (hv : ∀ j, (∃ i, j = half i) ∨ ∀ i, 0 < -(o.velocities j * o.velocities (half i))) (hinj : Function.Injective half) (hne : ∀ i, o.velocities i ≠ 0)
    (i : Fin (N / 2)) : ∃ j, ∃ τ : ℝ, (τ = 1 ∨ τ = η) ∧ U *ᵥ star (o.waveFunctions.col (half i)) = (τ : ℂ) • o.waveFunctions.col (half j) ∧
      cexp (-(I * o.momenta (half j))) = star (cexp (-(I * o.momenta (half i)))) := by
  have back : ∀ {x y : Fin n → ℂ}, y = U *ᵥ star x → U *ᵥ star y = (η : ℂ) • x := by
    intro x y hy
    rw [hy, star_mulVec_conj, mulVec_mulVec, hsq, smul_mulVec, one_mulVec]
  have away : ∀ i, 0 < o.momenta (half i) → PhPartner U o (half i) (half i.rev) ∧ o.momenta (half i.rev) = -o.momenta (half i) := by
    rcases hh with h | h
    · rw [h]; exact hp.incoming
    · rw [h]; exact hp.outgoing
  have away' : ∀ i, -Real.pi < o.momenta (half i) → o.momenta (half i) < 0 → 0 < o.momenta (half i.rev) := by
    rcases hh with h | h
    · rw [h]; exact hp.incoming'
    · rw [h]; exact hp.outgoing'
  have same : ∀ j k, o.velocities j = o.velocities k → (∃ i, k = half i) → ∃ i, j = half i := by
    intro j k hjk ⟨i, hi⟩
    rcases hv j with h | h
    · exact h
    · have h1 := h i
      rw [hjk, hi] at h1
      have := mul_self_nonneg (o.velocities (half i))
      linarith
  rcases lt_trichotomy (o.momenta (half i)) 0 with h0 | h0 | h0
  · rcases (hrange (half i)).1.lt_or_eq with h1 | h1
    · have h2 := away' i h1 h0
      obtain ⟨h3, h4⟩ := away i.rev h2
      rw [Fin.rev_rev] at h3 h4
      refine ⟨i.rev, η, .inr rfl, back h3.wave, star_mom_neg (.inl ?_)⟩
      rw [h4, neg_neg]
    · rcases hη with h | h
      · have h2 := hp.plus (by rw [hsq, h, ofReal_one, one_smul]) (half i) (.inr h1.symm)
        refine ⟨i, 1, .inl rfl, ?_, star_mom_neg (.inr ⟨h1.symm, h1.symm⟩)⟩
        rw [ofReal_one, one_smul]
        exact h2.wave.symm
      · rcases hp.minus (by rw [hsq, h, ofReal_neg, ofReal_one, neg_smul, one_smul]) (half i) (.inr h1.symm) with ⟨j, _, hj2, hj3⟩ | ⟨j, _, hj2, hj3⟩
        · obtain ⟨k, rfl⟩ := same j (half i) hj3.velocity ⟨i, rfl⟩
          refine ⟨k, 1, .inl rfl, ?_, star_mom_neg (.inr ⟨hj2.trans h1.symm, h1.symm⟩)⟩
          rw [ofReal_one, one_smul]
          exact hj3.wave.symm
        · obtain ⟨k, rfl⟩ := same j (half i) hj3.velocity.symm ⟨i, rfl⟩
          exact ⟨k, η, .inr rfl, back hj3.wave, star_mom_neg (.inr ⟨hj2.trans h1.symm, h1.symm⟩)⟩
  · rcases hη with h | h
    · have h2 := hp.plus (by rw [hsq, h, ofReal_one, one_smul]) (half i) (.inl h0)
      refine ⟨i, 1, .inl rfl, ?_, star_mom_neg (.inl (by rw [h0, neg_zero]))⟩
      rw [ofReal_one, one_smul]
      exact h2.wave.symm
    · rcases hp.minus (by rw [hsq, h, ofReal_neg, ofReal_one, neg_smul, one_smul]) (half i) (.inl h0) with ⟨j, _, hj2, hj3⟩ | ⟨j, _, hj2, hj3⟩
      · obtain ⟨k, rfl⟩ := same j (half i) hj3.velocity ⟨i, rfl⟩
        refine ⟨k, 1, .inl rfl, ?_, star_mom_neg (.inl (by rw [hj2, h0, neg_zero]))⟩
        rw [ofReal_one, one_smul]
        exact hj3.wave.symm
      · obtain ⟨k, rfl⟩ := same j (half i) hj3.velocity.symm ⟨i, rfl⟩
        exact ⟨k, η, .inr rfl, back hj3.wave, star_mom_neg (.inl (by rw [hj2, h0, neg_zero]))⟩
  · obtain ⟨h3, h4⟩ := away i h0
    refine ⟨i.rev, 1, .inl rfl, ?_, star_mom_neg (.inl h4)⟩
    rw [ofReal_one, one_smul]
    exact h3.wave.symm

/-- The partners of the modes of a block. -/
theorem halves_sym {m : BlockModes n} {sy : Symm n} {o : Proper n m.r m.N} (h1 : o.waveFunctions = m.waveFunctions) (h2 : o.momenta = m.momenta) (h3 : o.velocities = m.velocities)
    (hrange : ∀ i, -Real.pi ≤ o.momenta i ∧ o.momenta i < Real.pi) (hhalf : ∀ i, o.velocities i < 0 ↔ 2 * i.val < m.N) (hne : ∀ i, o.velocities i ≠ 0) (hs : SymModes sy o) {b : BM n}
    (hb : halves m = .ok b) : SymLead sy b.wf b.mom b.vel := by
  rw [halves] at hb
  split at hb
  · rename_i he
    cases hb
    have e1 : ∀ i, halfIdx he (.inl i) = firstHalf m.N i := fun i => rfl
    have e2 : ∀ i, halfIdx he (.inr i) = secondHalf m.N i := fun i => rfl
    have w1 : ∀ i, (m.waveFunctions.submatrix id (halfIdx he)).col (.inl i) = o.waveFunctions.col (firstHalf m.N i) := fun i => by rw [h1]; rfl
    have w2 : ∀ i, (m.waveFunctions.submatrix id (halfIdx he)).col (.inr i) = o.waveFunctions.col (secondHalf m.N i) := fun i => by rw [h1]; rfl
    have k1 : ∀ i, (m.momenta ∘ halfIdx he) (.inl i) = o.momenta (firstHalf m.N i) := fun i => by rw [h2]; rfl
    have k2 : ∀ i, (m.momenta ∘ halfIdx he) (.inr i) = o.momenta (secondHalf m.N i) := fun i => by rw [h2]; rfl
    have v1 : ∀ i, (m.velocities ∘ halfIdx he) (.inl i) = o.velocities (firstHalf m.N i) := fun i => by rw [h3]; rfl
    have v2 : ∀ i, (m.velocities ∘ halfIdx he) (.inr i) = o.velocities (secondHalf m.N i) := fun i => by rw [h3]; rfl
    have pos : ∀ i, ¬ (2 * i.val < m.N) → 0 < o.velocities i := fun i hi => lt_of_le_of_ne (not_lt.mp fun h => hi ((hhalf i).mp h)) (hne i).symm
    constructor
    · intro U hU i
      have ht := hs.tr U hU
      dsimp only
      rw [w1, w2, v1, v2, k1, k2]
      exact ⟨ht.wave i, ht.velocity i, ht.momentum i⟩
    · intro U ht hU
      obtain ⟨f, hf⟩ := hs.chiral U ht hU
      refine ⟨f, fun i => ?_⟩
      dsimp only
      rw [w1, w2, v1, v2, k1, k2]
      exact hf i
    · intro U ht hU η hη hsq
      have hp := hs.ph U ht hU
      dsimp only
      constructor
      · intro i
        simp only [w1, k1]
        refine ph_partner hrange hp hη hsq (firstHalf m.N) (.inl rfl) ?_ (Fin.castLE_injective _) hne i
        intro j
        by_cases hj : j.val < m.N / 2
        · exact .inl ⟨⟨j.val, hj⟩, rfl⟩
        · right
          intro i
          have a1 := pos j (by omega)
          have a2 := (hhalf (firstHalf m.N i)).mpr (by
            have : (firstHalf m.N i).val = i.val := rfl
            have := i.2
            omega)
          have := mul_pos a1 (neg_pos.mpr a2)
          rw [mul_neg] at this
          exact this
      · intro i
        simp only [w2, k2]
        refine ph_partner hrange hp hη hsq (secondHalf m.N) (.inr rfl) ?_ ?_ hne i
        · intro j
          by_cases hj : j.val < m.N / 2
          · right
            intro i
            have a1 := pos (secondHalf m.N i) (by
              have : (secondHalf m.N i).val = m.N / 2 + i.val := rfl
              omega)
            have a2 := (hhalf j).mpr (by omega)
            have := mul_pos (neg_pos.mpr a2) a1
            rw [neg_mul] at this
            exact this
          · have := j.2
            refine .inl ⟨⟨j.val - m.N / 2, by omega⟩, ?_⟩
            apply Fin.ext
            change j.val = m.N / 2 + (j.val - m.N / 2)
            omega
        · intro a b hab
          have := congrArg Fin.val hab
          apply Fin.ext
          have h4 : m.N / 2 + a.val = m.N / 2 + b.val := this
          omega
  · cases hb

/-- The symmetry of the only block is that of the lead. -/
theorem inner_default {sy : Symm n} (hn : 0 < n) (hun : (∀ U, sy.tr = some U → Uᴴ * U = 1) ∧ (∀ U, sy.ph = some U → Uᴴ * U = 1) ∧ ∀ U, sy.chiral = some U → Uᴴ * U = 1)
    (b : Fin (Projectors.default n).nb) : innerSymm (Projectors.default n) sy b = sy := by
  have key : ∀ U : Matrix (Fin n) (Fin n) ℂ, Uᴴ * U = 1 → nonzeroSymm U = some U := by
    intro U hU
    rw [nonzeroSymm, if_pos]
    have h1 : (∑ i, ∑ j, ‖U i j‖ ^ 2 : ℝ) = n := by
      have h2 := congrArg Matrix.trace hU
      rw [trace_one, Fintype.card_fin, trace] at h2
      have h3 : ∀ j, (Uᴴ * U).diag j = ((∑ i, ‖U i j‖ ^ 2 : ℝ) : ℂ) := by
        intro j
        rw [diag_apply, mul_apply]
        push_cast
        refine Finset.sum_congr rfl fun i _ => ?_
        rw [conjTranspose_apply, ← Complex.conj_mul']
        rfl
      rw [Finset.sum_congr rfl fun j _ => h3 j] at h2
      rw [Finset.sum_comm]
      exact_mod_cast h2
    rw [h1]
    have h4 : (1 : ℝ) ≤ n := by exact_mod_cast hn
    have h5 : 1 ≤ Real.sqrt n := Real.one_le_sqrt.mpr h4
    linarith
  have kz : nonzeroSymm (0 : Matrix (Fin n) (Fin n) ℂ) = none := by
    rw [nonzeroSymm, if_neg]
    simp
  have hone : ((1 : Matrix (Fin n) (Fin n) ℂ).map (starRingEnd ℂ)) = 1 := Matrix.map_one _ (map_zero _) (map_one _)
  have e1 : ∀ U : Matrix (Fin n) (Fin n) ℂ, (Projectors.default n).ablk U b b = U := by
    intro U
    change (1 : Matrix (Fin n) (Fin n) ℂ)ᴴ * U * ((1 : Matrix (Fin n) (Fin n) ℂ).map (starRingEnd ℂ)) = U
    rw [hone, conjTranspose_one, Matrix.one_mul, Matrix.mul_one]
  have e2 : ∀ U : Matrix (Fin n) (Fin n) ℂ, (Projectors.default n).blk U b b = U := fun U => default_blk U b b
  obtain ⟨tr, ph, ch⟩ := sy
  obtain ⟨u1, u2, u3⟩ := hun
  have gen : ∀ (x : Option (Matrix (Fin n) (Fin n) ℂ)), (∀ U, x = some U → Uᴴ * U = 1) → nonzeroSymm (x.getD 0) = x := by
    intro x hx
    cases x with
    | none => exact kz
    | some U => exact key U (hx U rfl)
  have a1 : symTr (Projectors.default n) ⟨tr, ph, ch⟩ b b = tr := (congrArg nonzeroSymm (e1 (tr.getD 0))).trans (gen tr u1)
  have a2 : symPh (Projectors.default n) ⟨tr, ph, ch⟩ b b = ph := (congrArg nonzeroSymm (e1 (ph.getD 0))).trans (gen ph u2)
  have a3 : symChiral (Projectors.default n) ⟨tr, ph, ch⟩ b b = ch := (congrArg nonzeroSymm (e2 (ch.getD 0))).trans (gen ch u3)
  change (⟨_, _, _⟩ : Symm n) = _
  rw [a1, a2, a3]

/-- The order of the modes is arbitrary. -/
theorem SymLead.reindex {sy : Symm n} {p p' : ℕ} {wf : Matrix (Fin n) (Fin p ⊕ Fin p) ℂ} {mom vel : Fin p ⊕ Fin p → ℝ} (hs : SymLead sy wf mom vel) (g : Fin p' ≃ Fin p) :
    SymLead sy (wf.submatrix id (Sum.map g g)) (mom ∘ Sum.map g g) (vel ∘ Sum.map g g) := by
  constructor
  · intro U hU i
    exact hs.tr U hU (g i)
  · intro U ht hU
    obtain ⟨f, hf⟩ := hs.chiral U ht hU
    refine ⟨(g.trans f).trans g.symm, fun i => ?_⟩
    have h1 := hf (g i)
    have e : g (((g.trans f).trans g.symm) i) = f (g i) := by simp
    rw [← e] at h1
    exact h1
  · intro U ht hU η hη hsq
    obtain ⟨h1, h2⟩ := hs.ph U ht hU η hη hsq
    constructor
    · intro i
      obtain ⟨j, τ, h3, h4, h5⟩ := h1 (g i)
      obtain ⟨j, rfl⟩ := g.surjective j
      exact ⟨j, τ, h3, h4, h5⟩
    · intro i
      obtain ⟨j, τ, h3, h4, h5⟩ := h2 (g i)
      obtain ⟨j, rfl⟩ := g.surjective j
      exact ⟨j, τ, h3, h4, h5⟩

theorem runModes_one {e : ModesNum} {P : Projectors n} {sy : Symm n} {h hop : Matrix (Fin n) (Fin n) ℂ} {i : Fin P.nb} {st : BState P}
    (hs : runModes e P sy h hop [(i, i)] (fun _ => none) = .ok st) :
    ∃ m b, computeBlockModes (e.num (P.dim i)) (innerSymm P sy i) (e.junk i) (P.blk h i i) (P.blk hop i i) e.stab = .ok m ∧ halves m = .ok b ∧ st = BState.set (fun _ => none) i b := by
  rw [runModes] at hs
  split at hs
  · cases hs
  rename_i st1 h1
  rw [runModes] at hs
  cases hs
  rw [modesStep, if_pos rfl] at h1
  dsimp only at h1
  split at h1
  · cases h1
  rename_i m hm
  split at h1
  · cases h1
  rename_i b hb
  cases h1
  exact ⟨m, b, hm, hb, rfl⟩

theorem SymLead.join_one {sy : Symm n} {b0 : BM n} (hsym : SymLead sy b0.wf b0.mom b0.vel) :
    SymLead sy (joinModes (Projectors.default n) fun _ => b0).wf (joinModes (Projectors.default n) fun _ => b0).mom (joinModes (Projectors.default n) fun _ => b0).vel := by
  have hsum : (∑ _ : Fin (Projectors.default n).nb, b0.p) = b0.p := Fin.sum_univ_one _
  have h1 := hsym.reindex (finCongr hsum)
  have hfin : ∀ i : Fin (∑ _ : Fin (Projectors.default n).nb, b0.p), (finSigmaFinEquiv.symm i).2 = finCongr hsum i := by
    intro i
    obtain ⟨⟨x, y⟩, rfl⟩ := finSigmaFinEquiv.surjective i
    rw [Equiv.symm_apply_apply]
    have hx : x = (0 : Fin 1) := Subsingleton.elim (α := Fin 1) _ _
    subst hx
    apply Fin.ext
    rw [finCongr_apply_coe, finSigmaFinEquiv_apply]
    exact (Nat.zero_add _).symm
  have ew : ((joinModes (Projectors.default n) fun _ => b0).wf :
      Matrix (Fin n) (Fin (∑ _ : Fin (Projectors.default n).nb, b0.p) ⊕ Fin (∑ _ : Fin (Projectors.default n).nb, b0.p)) ℂ) = b0.wf.submatrix id (Sum.map (finCongr hsum) (finCongr hsum)) := by
    ext x i
    rcases i with i | i
    · exact (congrFun (congrFun (Matrix.one_mul b0.wf) x) (.inl (finSigmaFinEquiv.symm i).2)).trans (congrArg (fun j => b0.wf x (.inl j)) (hfin i))
    · exact (congrFun (congrFun (Matrix.one_mul b0.wf) x) (.inr (finSigmaFinEquiv.symm i).2)).trans (congrArg (fun j => b0.wf x (.inr j)) (hfin i))
  have ek : ∀ f : Fin b0.p ⊕ Fin b0.p → ℝ, groupHalves (fun _ : Fin (Projectors.default n).nb => f) = f ∘ Sum.map (finCongr hsum) (finCongr hsum) := by
    intro f
    funext i
    rcases i with i | i
    · change f (.inl (finSigmaFinEquiv.symm i).2) = f (.inl (finCongr hsum i))
      rw [hfin]
    · change f (.inr (finSigmaFinEquiv.symm i).2) = f (.inr (finCongr hsum i))
      rw [hfin]
  rw [ew]
  change SymLead sy _ (groupHalves (fun _ : Fin (Projectors.default n).nb => b0.mom)) (groupHalves (fun _ : Fin (Projectors.default n).nb => b0.vel))
  rw [ek, ek]
  exact h1

/-- **C189**: the modes that `modes` returns for a lead without conservation laws: they are partners under the symmetries, and no signs appear. -/
theorem C189_modes {e : ModesNum} {sy : Symm n} {h : Matrix (Fin n) (Fin n) ℂ} {m : ℕ} {hhop : Matrix (Fin n) (Fin m) ℂ} {M : LeadModes n m}
    (ho : LeadOk e (Projectors.default n) sy h (padHop hhop)) (hun : (∀ U, sy.tr = some U → Uᴴ * U = 1) ∧ (∀ U, sy.ph = some U → Uᴴ * U = 1) ∧ ∀ U, sy.chiral = some U → Uᴴ * U = 1)
    (hM : modes e none sy h hhop = .ok M) :
    SymLead sy M.wf M.mom M.vel ∧ LeadSpec h (padHop hhop) M.wf M.mom M.vel M.stab.vecslmbdainv M.stab.vecs (padRows M.stab.sqrtHop) fun _ => 1 := by
  have hM0 := hM
  rw [modes] at hM
  split at hM
  · rename_i h0
    cases hM
    obtain ⟨s, h1, _⟩ := (empty_spec (P := Projectors.default n) (sy := sy) h0 ho.flat).spec
    refine ⟨⟨fun _ _ i => Fin.elim0 i, fun _ _ _ => ⟨Equiv.refl _, fun i => Fin.elim0 i⟩, fun _ _ _ _ _ _ => ⟨fun i => Fin.elim0 i, fun i => Fin.elim0 i⟩⟩, ?_⟩
    have e1 : s = fun _ => 1 := by
      funext i
      rcases i with i | i <;> exact Fin.elim0 i
    rw [e1] at h1
    exact h1
  · rename_i hne
    split at hM
    · rename_i hm
      have hn : 0 < n := by
        rcases Nat.eq_zero_or_pos n with h1 | h1
        · exfalso
          subst h1
          exact hne (by ext i; exact Fin.elim0 i)
        · exact h1
      dsimp only at hM
      split at hM
      · cases hM
      rename_i st hst
      split at hM
      · rename_i hs
        cases hM
        change runModes e (Projectors.default n) sy h (padHop hhop) [((0 : Fin 1), (0 : Fin 1))] (fun _ => none) = .ok st at hst
        obtain ⟨m0, b0, hm0, hb1, hst1⟩ := runModes_one (P := Projectors.default n) (i := (0 : Fin 1)) hst
        have hspec := ho.blocks (0 : Fin 1) m0 hm0
        have hin := inner_default hn hun (0 : Fin 1)
        obtain ⟨o, o1, o2, o3, o4, o5, o6⟩ := block_sym _ (ho.num (0 : Fin 1)) (block_herm (P := Projectors.default n) ho.herm (0 : Fin 1)) (ho.cut (0 : Fin 1)) (block_edge ho.proj ho.edge (0 : Fin 1))
          (block_flat ho.proj ho.flat (0 : Fin 1)) (fun s0 hs0 => block_infinite ho.proj (ho.infinite s0 hs0) (0 : Fin 1)) (ho.sep (0 : Fin 1)) _ (inner_related ho.proj ho.symm (0 : Fin 1))
          (ho.inner (0 : Fin 1)) hm0
        have o6' : SymModes sy o := (congrArg (fun s : Symm n => SymModes s o) hin).mp o6
        obtain ⟨b1, hb0, hb2, hb3, hb4⟩ := halves_spec hspec
        obtain rfl : b0 = b1 := Except.ok.inj (hb1.symm.trans hb0)
        have hsym : SymLead sy b0.wf b0.mom b0.vel := halves_sym o1 o2 o3 o4 o5 (by rw [o3]; exact hspec.nonzero) o6' hb1
        have hbm : (fun b => (st b).get (hs b)) = fun _ => b0 := by
          funext b
          have hb : b = (0 : Fin 1) := Subsingleton.elim (α := Fin 1) _ _
          subst hb
          have hb5 : st (0 : Fin 1) = some b0 := by
            rw [hst1]
            exact BState.set_self _ _ _
          exact Option.some.inj ((Option.some_get (hs (0 : Fin 1))).trans hb5)
        rw [hbm]
        have hj := (join_spec (P := Projectors.default n) ho.proj (m := fun _ => b0) (s := fun _ _ => 1) (fun b => by
          have hb : b = (0 : Fin 1) := Subsingleton.elim (α := Fin 1) _ _
          subst hb
          exact hb2) (fun _ => hb3)).1
        obtain ⟨u, hf, hu, _⟩ := hj.solves
        have hrow := padRows_cut hm (rows_zero hf hu)
        constructor
        · exact SymLead.join_one hsym
        · have hj2 := hj
          unfold BM.Spec at hj2
          rw [← hrow] at hj2
          have e1 : groupHalves (p := fun _ : Fin (Projectors.default n).nb => b0.p) (fun _ _ => (1 : ℂ)) = fun _ => 1 := by
            funext i
            rcases i with i | i <;> rfl
          rw [e1] at hj2
          exact hj2
      · cases hM
    · cases hM

end Kwant.Leads
