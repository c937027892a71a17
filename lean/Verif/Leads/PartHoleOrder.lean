import Verif.Leads.PartHoleMain

/-!
C158: what holds in any case, and C159: leads with particle-hole and time-reversal symmetry.
-/

set_option linter.unusedSectionVars false

namespace Kwant.Leads
open Matrix Complex

variable {n : ℕ}

/-! ### In any case -/

/-- The momentum is considered to be positive (l.834). -/
def PosK (e : ModeNum n) (k : ℝ) : Prop := Real.pi - e.eps > k ∧ k > e.eps

section order
variable {e : ModeNum n} {ph : Matrix (Fin n) (Fin n) ℂ} {N r : ℕ}

theorem mem_positiveK {off : ℕ} (hN : off + N / 2 ≤ N) {mom : Fin N → ℝ} {j : Fin N} : j ∈ positiveK e off mom ↔ ∃ i, part off hN i = j ∧ PosK e (mom j) := by
  rw [positiveK, List.mem_filter, decide_eq_true_eq]
  constructor
  · rintro ⟨_, h1, h2, h3⟩
    exact ⟨⟨j.val - off, by omega⟩, Fin.ext (show off + (j.val - off) = j.val by omega), h3⟩
  · rintro ⟨i, rfl, h3⟩
    refine ⟨List.mem_finRange _, ?_, ?_, h3⟩
    · simp only [part]
      omega
    · simp only [part]
      omega

theorem neg_inj {off : ℕ} (hN : off + N / 2 ≤ N) (mom : Fin N → ℝ) : Function.Injective (mirror off hN ∘ (positiveK e off mom).get) := by
  intro a b hab
  obtain ⟨i, hi, _⟩ := (mem_positiveK hN).mp (List.get_mem _ a)
  obtain ⟨j, hj, _⟩ := (mem_positiveK hN).mp (List.get_mem _ b)
  rw [Function.comp_apply, Function.comp_apply, ← hi, ← hj, mirror_part, mirror_part] at hab
  have h1 := Fin.rev_injective (part_inj hN hab)
  have hnd : (positiveK e off mom).Nodup := by
    rw [positiveK]
    exact (List.nodup_finRange N).filter _
  apply List.nodup_iff_injective_get.mp hnd
  rw [← hi, ← hj, h1]

theorem phHalf_sel {off : ℕ} (hN : off + N / 2 ≤ N) {mom : Fin N → ℝ} (s : Matrix (Fin n) (Fin N) ℂ × Matrix (Fin r ⊕ Fin r) (Fin N) ℂ) {i : Fin (N / 2)} (hi : PosK e (mom (part off hN i))) :
    (phHalf e ph off hN mom s).1.col (part off hN i.rev) = ph *ᵥ star (s.1.col (part off hN i)) := by
  obtain ⟨a, ha⟩ := List.get_of_mem ((mem_positiveK hN).mpr ⟨i, rfl, hi⟩)
  have h1 : part off hN i.rev = (mirror off hN ∘ (positiveK e off mom).get) a := by
    rw [Function.comp_apply, ha, mirror_part]
  rw [h1, phHalf]
  dsimp only
  rw [updCols_col_sel (neg_inj hN mom), ← ha]
  rfl

theorem phHalf_not {off : ℕ} (hN : off + N / 2 ≤ N) {mom : Fin N → ℝ} (s : Matrix (Fin n) (Fin N) ℂ × Matrix (Fin r ⊕ Fin r) (Fin N) ℂ) {j : Fin N}
    (hj : ∀ i, part off hN i.rev = j → ¬PosK e (mom (part off hN i))) : (phHalf e ph off hN mom s).1.col j = s.1.col j := by
  rw [phHalf]
  dsimp only
  refine updCols_col_not _ _ fun a h1 => ?_
  obtain ⟨i, hi, h2⟩ := (mem_positiveK hN).mp (List.get_mem _ a)
  rw [Function.comp_apply, ← hi, mirror_part] at h1
  rw [← hi] at h2
  exact hj i h1 h2

/-- C158: whatever the lead is, the wave functions of the incoming modes at the mirror positions of modes with positive momenta are proportional to their partners. -/
theorem C158_order (he : e.Ok) (lam : Fin N → ℂ) (psi : Matrix (Fin r ⊕ Fin r) (Fin N) ℂ)
    (extract : Matrix (Fin r ⊕ Fin r) (Fin N) ℂ → (Fin N → ℂ) → Matrix (Fin n) (Fin N) ℂ) (junk : Fin N → ℝ) {o : Proper n r N}
    (ho : makeProperModes e ⟨none, some ph, none⟩ junk lam psi extract = .ok o) (i : Fin (N / 2)) (hi : PosK e (o.momenta (firstHalf N i)))
    (hi' : ¬PosK e (o.momenta (firstHalf N i.rev))) :
    ((Real.sqrt |o.velocities (firstHalf N i.rev)| : ℝ) : ℂ) • o.waveFunctions.col (firstHalf N i.rev) =
      ((Real.sqrt |o.velocities (firstHalf N i)| : ℝ) : ℂ) • (ph *ᵥ star (o.waveFunctions.col (firstHalf N i))) := by
  rw [makeProperModes] at ho
  split at ho
  · cases ho
  rename_i m hm
  split at ho
  · rename_i hv
    rw [velCheck, decide_eq_true_eq] at hv
    have hne : ∀ j, ((Real.sqrt |m.vel j| : ℝ) : ℂ) ≠ 0 := by
      intro j
      refine Complex.ofReal_ne_zero.mpr (Real.sqrt_pos.mpr (abs_pos.mpr fun h0 => hv.1 j ?_)).ne'
      rw [h0, abs_zero]
      exact he.velEps
    dsimp only at ho
    generalize hσ : Tuple.sort (sortKey m.vel (fun i => -(m.lam i).arg) m.trim) = σ at ho
    set mom : Fin N → ℝ := (fun i => -(m.lam i).arg) ∘ σ with hmom
    set s0 : Matrix (Fin n) (Fin N) ℂ × Matrix (Fin r ⊕ Fin r) (Fin N) ℂ := (m.full.submatrix id σ, m.psi.submatrix id σ) with hs0
    have hpar : partners e ⟨none, some ph, none⟩ mom s0 = phHalf e ph (N / 2) (by omega) mom (phHalf e ph 0 (by omega) mom s0) := rfl
    rw [hpar] at ho
    have hne' : ∀ j, ((Real.sqrt |(m.vel ∘ σ) j| : ℝ) : ℂ) ≠ 0 := fun j => hne (σ j)
    have ho' := Except.ok.inj ho
    have hpf : ∀ i, part 0 (by omega) i = firstHalf N i := fun i => Fin.ext (show 0 + i.val = i.val by omega)
    have hk : o.momenta = mom := by rw [← ho']
    rw [hk] at hi hi'
    have hoth : ∀ j, (phHalf e ph (N / 2) (by omega) mom (phHalf e ph 0 (by omega) mom s0)).1.col (firstHalf N j) = (phHalf e ph 0 (by omega) mom s0).1.col (firstHalf N j) := by
      intro j
      refine phHalf_not (by omega) _ fun i h1 => ?_
      have := congrArg Fin.val h1
      simp only [part, firstHalf, Fin.val_castLE] at this
      have := j.2
      omega
    have t2 : (phHalf e ph (N / 2) (by omega) mom (phHalf e ph 0 (by omega) mom s0)).1.col (firstHalf N i.rev) = ph *ᵥ star (s0.1.col (firstHalf N i)) := by
      rw [hoth, ← hpf, phHalf_sel (by omega) s0 (by rw [hpf]; exact hi), hpf]
    have t3 : (phHalf e ph (N / 2) (by omega) mom (phHalf e ph 0 (by omega) mom s0)).1.col (firstHalf N i) = s0.1.col (firstHalf N i) := by
      rw [hoth]
      refine phHalf_not (by omega) _ fun j h1 => ?_
      rw [← hpf] at h1
      have h2 := part_inj _ h1
      have h3 : j = i.rev := by rw [← h2, Fin.rev_rev]
      rw [h3, hpf]
      exact hi'
    rw [← ho']
    dsimp only
    rw [div_col, div_col, t2, t3, smul_smul, mul_inv_cancel₀ (hne' _), one_smul, ← mulVec_smul]
    congr 1
    ext x
    simp only [Pi.smul_apply, Pi.star_apply, smul_eq_mul, star_mul', star_inv₀]
    rw [star_def, Complex.conj_ofReal, ← mul_assoc, mul_inv_cancel₀ (hne' _), one_mul]
  · cases ho

end order

/-! ### Particle-hole and time-reversal symmetry -/

/-- What is promised for the incoming modes if `P ψ = ph ψ*` is a symmetry. -/
structure ParticleHoleIn (ph : Matrix (Fin n) (Fin n) ℂ) {r N : ℕ} (o : Proper n r N) : Prop where
  away : ∀ i : Fin (N / 2), 0 < o.momenta (firstHalf N i) →
    PhPartner ph o (firstHalf N i) (firstHalf N i.rev) ∧ o.momenta (firstHalf N i.rev) = -o.momenta (firstHalf N i)
  away' : ∀ i : Fin (N / 2), -Real.pi < o.momenta (firstHalf N i) → o.momenta (firstHalf N i) < 0 → 0 < o.momenta (firstHalf N i.rev)
  plus : ph * conjM ph = 1 → ∀ i, o.velocities i < 0 → o.momenta i = 0 ∨ o.momenta i = -Real.pi → PhPartner ph o i i
  minus : ph * conjM ph = -1 → ∀ i, o.velocities i < 0 → o.momenta i = 0 ∨ o.momenta i = -Real.pi →
    (∃ j, j.val = i.val + 1 ∧ o.momenta j = o.momenta i ∧ PhPartner ph o i j) ∨ ∃ j, i.val = j.val + 1 ∧ o.momenta j = o.momenta i ∧ PhPartner ph o j i

/-- What holds for the outgoing modes: the relations with the signs `σ` and `τ`. -/
structure ParticleHoleOut (ph : Matrix (Fin n) (Fin n) ℂ) (σ τ : ℂ) {r N : ℕ} (o : Proper n r N) : Prop where
  away : ∀ i : Fin (N / 2), 0 < o.momenta (secondHalf N i) → o.waveFunctions.col (secondHalf N i.rev) = σ • (ph *ᵥ star (o.waveFunctions.col (secondHalf N i))) ∧
    o.velocities (secondHalf N i.rev) = o.velocities (secondHalf N i) ∧ o.momenta (secondHalf N i.rev) = -o.momenta (secondHalf N i)
  plus : ph * conjM ph = 1 → ∀ i, 0 < o.velocities i → o.momenta i = 0 ∨ o.momenta i = -Real.pi → o.waveFunctions.col i = τ • (ph *ᵥ star (o.waveFunctions.col i))
  minus : ph * conjM ph = -1 → ∀ i, 0 < o.velocities i → o.momenta i = 0 ∨ o.momenta i = -Real.pi →
    (∃ j, j.val = i.val + 1 ∧ o.momenta j = o.momenta i ∧ o.velocities j = o.velocities i ∧ o.waveFunctions.col j = τ • (ph *ᵥ star (o.waveFunctions.col i))) ∨
      ∃ j, i.val = j.val + 1 ∧ o.momenta j = o.momenta i ∧ o.velocities j = o.velocities i ∧ o.waveFunctions.col i = τ • (ph *ᵥ star (o.waveFunctions.col j))

section both
variable {h hop : Matrix (Fin n) (Fin n) ℂ} {L : Linsys n} {u : Matrix (Fin n) (Fin L.r) ℂ}

theorem OneSpeed.away (h1 : OneSpeed h hop) : OneSpeedAway h hop := fun μ v w hμ _ _ hv hw => h1 μ v w hμ hv hw

theorem NotMixedPi.alone (h2 : NotMixedPi h hop) : PiAlone h hop := by
  rcases h2 with h2 | h2
  · exact .inl h2
  · exact .inr fun μ ψ hμ hψ h0 => .inr (h2 μ ψ hμ hψ h0)

theorem star_mulVec_conj (A : Matrix (Fin n) (Fin n) ℂ) (x : Fin n → ℂ) : star (A *ᵥ star x) = conjM A *ᵥ x := by
  ext i
  simp [mulVec, dotProduct, conjM]

/-- C159: with time-reversal and particle-hole symmetry the modes are proper modes, the outgoing ones are the time-reversed incoming ones, and the incoming ones are related by the
particle-hole symmetry.  If `T P = ε P T` and `P^2 = η`, the same relations hold for the outgoing modes up to the signs `ε η` and `ε`. -/
theorem C159_modes_partial (hh : h.IsHermitian) (en : Numerics n) (hen : en.Ok hop) {stab : Option (Option Bool × Bool)}
    (hL : setupLinsys en h hop stab = .ok L) (hc : CutExact en hop) (hst : ∀ s0, stab = some (s0, true) → NoInfinite h hop)
    (e : ModeNum n) (he : e.Ok) (hep : e.PhsOk) (he1 : e.eps ≤ 1) {N : ℕ} {lam : Fin N → ℂ} {psi : Matrix (Fin L.r ⊕ Fin L.r) (Fin N) ℂ} (hi : PropInput L lam psi)
    (hs : Separated e lam) (hts : TrimSep e lam) {ph tr : Matrix (Fin n) (Fin n) ℂ} (hr : Related ph true true h hop h hop) (hr' : Related tr true false h hop h hop)
    (hgap : SpeedGap e.velEps h hop) (h1 : OneSpeed h hop) (h2 : NotMixedPi h hop) (ch : Option (Matrix (Fin n) (Fin n) ℂ)) (junk : Fin N → ℝ) {o : Proper n L.r N}
    (ho : makeProperModes e ⟨some tr, some ph, ch⟩ junk lam psi L.extract = .ok o) :
    ProperSpec h hop L o ∧ TimeReversed tr o ∧ ParticleHoleIn ph o ∧
      ∀ ε η : ℂ, ε * ε = 1 → η * η = 1 → tr * conjM ph = ε • (ph * conjM tr) → ph * conjM ph = η • (1 : Matrix (Fin n) (Fin n) ℂ) → ParticleHoleOut ph (ε * η) ε o := by
  obtain ⟨u, hF⟩ := setup_faithful en hen hL hc hst
  rw [makeProperModes] at ho
  split at ho
  · cases ho
  rename_i m hm
  split at ho
  swap
  · cases ho
  rename_i hv
  obtain ⟨g1, g2, g3⟩ := ph_loop hF he hep he1 hi hs hts hr hgap (fun h0 => by cases h0) hm
  rw [g1] at ho
  dsimp only at ho
  generalize hσ : Tuple.sort (sortKey m.vel (fun i => -(lam i).arg) m.trim) = σ at ho
  have hsrt := g2.sorted e he hi.unit hv m.trim hσ.symm
  obtain ⟨full', psi', p1, p2, p3⟩ := hsrt.ph_good hh hF he he1 (fun i => hts (σ i)) hr h1.away h2.alone (g3.perm σ)
  have p1' : partners e ⟨some tr, some ph, ch⟩ ((fun i => -(lam i).arg) ∘ σ) (m.full.submatrix id σ, m.psi.submatrix id σ) = trStep e tr (full', psi') := by
    rw [← p1]
    rfl
  rw [p1'] at ho
  obtain ⟨t1, t2, t3⟩ := p2.tr_good hh hF he hr' h1 h2
  have hmatch := p2.tr_match hr' h1 h2
  have ho' := Except.ok.inj ho
  have hprop : ProperSpec h hop L o := by
    rw [← ho']
    exact finish hF e he hi.unit hv (mom := fun i => -(lam i).arg) rfl hσ.symm t1
  have hcol : ∀ j, o.waveFunctions.col j = ((Real.sqrt |o.velocities j| : ℝ) : ℂ)⁻¹ • (trStep e tr (full', psi')).1.col j := by
    intro j
    rw [← ho']
    dsimp only
    rw [div_col]
  have hvel : ∀ j, o.velocities j = (m.vel ∘ σ) j := by
    intro j
    rw [← ho']
  have hmom : ∀ j, o.momenta j = -((lam ∘ σ) j).arg := by
    intro j
    rw [← ho']
    rfl
  have hw1 : ∀ i, o.waveFunctions.col (firstHalf N i) = ((Real.sqrt |o.velocities (firstHalf N i)| : ℝ) : ℂ)⁻¹ • full'.col (firstHalf N i) := fun i => by rw [hcol, t3]
  have hvel2 : ∀ i, o.velocities (secondHalf N i) = -o.velocities (firstHalf N i) := fun i => by rw [hvel, hvel, (hmatch i).2]
  have hw2 : ∀ i, o.waveFunctions.col (secondHalf N i) = tr *ᵥ star (o.waveFunctions.col (firstHalf N i)) := by
    intro i
    rw [hcol, t2, hw1, hvel2, abs_neg, star_smul_real, mulVec_smul]
  have hhalf : ∀ j, o.velocities j < 0 → ∃ i, firstHalf N i = j := by
    intro j hj
    rw [hvel] at hj
    exact firstHalf_surj p2.even ((p2.half j).mp hj)
  have hhalf2 : ∀ j, 0 < o.velocities j → ∃ i, secondHalf N i = j := by
    intro j hj
    rw [hvel] at hj
    refine secondHalf_surj p2.even fun h0 => ?_
    have := (p2.half j).mpr h0
    linarith
  have key : ∀ i j, full'.col (firstHalf N j) = ph *ᵥ star (full'.col (firstHalf N i)) → o.velocities (firstHalf N j) = o.velocities (firstHalf N i) →
      o.waveFunctions.col (firstHalf N j) = ph *ᵥ star (o.waveFunctions.col (firstHalf N i)) := by
    intro i j e1 e2
    rw [hw1, hw1, e1, e2, star_smul_real, mulVec_smul]
  have hmomtr : ∀ i, o.momenta (secondHalf N i) = -o.momenta (firstHalf N i) ∨ (o.momenta (secondHalf N i) = -Real.pi ∧ o.momenta (firstHalf N i) = -Real.pi) := by
    intro i
    rw [hmom, hmom, (hmatch i).1]
    by_cases h3 : (lam ∘ σ) (firstHalf N i) = -1
    · right
      rw [h3]
      simp [Complex.arg_neg_one]
    · left
      rw [arg_conj' (p2.unit _) h3]
  have htrim : ∀ i, o.momenta i = 0 ∨ o.momenta i = -Real.pi → (lam ∘ σ) i = 1 ∨ (lam ∘ σ) i = -1 := by
    intro i h0
    rw [hmom] at h0
    exact mom_trim (p2.unit i) h0
  -- neighbours of modes in the first half with the same velocity
  have hminus : ph * conjM ph = -1 → ∀ i : Fin (N / 2), o.momenta (firstHalf N i) = 0 ∨ o.momenta (firstHalf N i) = -Real.pi →
      (∃ j : Fin (N / 2), j.val = i.val + 1 ∧ o.momenta (firstHalf N j) = o.momenta (firstHalf N i) ∧ o.velocities (firstHalf N j) = o.velocities (firstHalf N i) ∧
        o.waveFunctions.col (firstHalf N j) = ph *ᵥ star (o.waveFunctions.col (firstHalf N i))) ∨
      ∃ j : Fin (N / 2), i.val = j.val + 1 ∧ o.momenta (firstHalf N j) = o.momenta (firstHalf N i) ∧ o.velocities (firstHalf N j) = o.velocities (firstHalf N i) ∧
        o.waveFunctions.col (firstHalf N i) = ph *ᵥ star (o.waveFunctions.col (firstHalf N j)) := by
    intro hP i h0
    have hvi : (m.vel ∘ σ) (firstHalf N i) < 0 := p2.first i
    rcases p3.minus hP (firstHalf N i) (htrim _ h0) with ⟨j, q1, q2, q3, q4⟩ | ⟨j, q1, q2, q3, q4⟩
    · obtain ⟨j', rfl⟩ := firstHalf_surj p2.even ((p2.half j).mp (by rw [q3]; exact hvi))
      have q5 : o.velocities (firstHalf N j') = o.velocities (firstHalf N i) := by rw [hvel, hvel, q3]
      exact .inl ⟨j', q1, by rw [hmom, hmom, q2], q5, key _ _ q4 q5⟩
    · obtain ⟨j', rfl⟩ := firstHalf_surj p2.even ((p2.half j).mp (by rw [q3]; exact hvi))
      have q5 : o.velocities (firstHalf N j') = o.velocities (firstHalf N i) := by rw [hvel, hvel, q3]
      exact .inr ⟨j', q1, by rw [hmom, hmom, q2], q5, key _ _ q4 q5.symm⟩
  have haway : ∀ i : Fin (N / 2), 0 < o.momenta (firstHalf N i) → o.waveFunctions.col (firstHalf N i.rev) = ph *ᵥ star (o.waveFunctions.col (firstHalf N i)) ∧
      o.velocities (firstHalf N i.rev) = o.velocities (firstHalf N i) ∧ o.momenta (firstHalf N i.rev) = -o.momenta (firstHalf N i) := by
    intro i h0
    rw [hmom] at h0
    obtain ⟨q1, q2, q3⟩ := p3.first i h0
    have q5 : o.velocities (firstHalf N i.rev) = o.velocities (firstHalf N i) := by rw [hvel, hvel, q2]
    exact ⟨key _ _ q1 q5, q5, by rw [hmom, hmom, q3]⟩
  have haway' : ∀ i : Fin (N / 2), -Real.pi < o.momenta (firstHalf N i) → o.momenta (firstHalf N i) < 0 → 0 < o.momenta (firstHalf N i.rev) := by
    intro i q1 q2
    rw [hmom] at q1 q2 ⊢
    exact p3.first' i q1 q2
  have hplus : ph * conjM ph = 1 → ∀ i : Fin (N / 2), o.momenta (firstHalf N i) = 0 ∨ o.momenta (firstHalf N i) = -Real.pi →
      o.waveFunctions.col (firstHalf N i) = ph *ᵥ star (o.waveFunctions.col (firstHalf N i)) :=
    fun hP i h0 => key _ _ (p3.plus hP _ (htrim _ h0)).symm rfl
  refine ⟨hprop, ⟨hw2, hvel2, hmomtr⟩, ⟨?_, haway', ?_, ?_⟩, ?_⟩
  · intro i h0
    obtain ⟨q1, q2, q3⟩ := haway i h0
    exact ⟨⟨q1, q2⟩, q3⟩
  · intro hP i hvi h0
    obtain ⟨i, rfl⟩ := hhalf i hvi
    exact ⟨hplus hP i h0, rfl⟩
  · intro hP i hvi h0
    obtain ⟨i, rfl⟩ := hhalf i hvi
    rcases hminus hP i h0 with ⟨j, q1, q2, q3, q4⟩ | ⟨j, q1, q2, q3, q4⟩
    · exact .inl ⟨firstHalf N j, q1, q2, q4, q3⟩
    · exact .inr ⟨firstHalf N j, q1, q2, q4, q3.symm⟩
  · intro ε η hε hη hT hP
    -- a partner of an incoming mode gives a partner of an outgoing mode
    have move : ∀ i j, o.waveFunctions.col (firstHalf N j) = ph *ᵥ star (o.waveFunctions.col (firstHalf N i)) →
        o.waveFunctions.col (secondHalf N j) = ε • (ph *ᵥ star (o.waveFunctions.col (secondHalf N i))) := by
      intro i j e1
      rw [hw2, hw2, e1, star_mulVec_conj, mulVec_mulVec, hT, smul_mulVec, star_mulVec_conj, mulVec_mulVec]
    have htrim2 : ∀ i, o.momenta (secondHalf N i) = 0 ∨ o.momenta (secondHalf N i) = -Real.pi → o.momenta (firstHalf N i) = 0 ∨ o.momenta (firstHalf N i) = -Real.pi := by
      intro i h0
      rcases hmomtr i with h3 | ⟨_, h3⟩
      · rcases h0 with h0 | h0
        · left
          linarith
        · exfalso
          have h4 : o.momenta (firstHalf N i) = Real.pi := by linarith
          have := hprop.range (firstHalf N i)
          linarith [this.2]
      · exact .inr h3
    refine ⟨?_, ?_, ?_⟩
    · intro i h0
      have h3 : o.momenta (secondHalf N i) = -o.momenta (firstHalf N i) := by
        rcases hmomtr i with h3 | ⟨h3, _⟩
        · exact h3
        · linarith [Real.pi_pos]
      have h4 : -Real.pi < o.momenta (firstHalf N i) := by
        have := (hprop.range (secondHalf N i)).2
        linarith
      have h5 := haway' i h4 (by linarith)
      obtain ⟨q1, q2, q3⟩ := haway i.rev h5
      rw [Fin.rev_rev] at q1 q2 q3
      have q4 := move _ _ q1
      refine ⟨?_, by rw [hvel2, hvel2, q2], ?_⟩
      · rw [q4]
        have e1 : star (ε • (ph *ᵥ star (o.waveFunctions.col (secondHalf N i.rev)))) = star ε • (conjM ph *ᵥ o.waveFunctions.col (secondHalf N i.rev)) := by
          rw [star_smul, star_mulVec_conj]
        have hεs : star ε = ε := by
          have : ε = 1 ∨ ε = -1 := mul_self_eq_one_iff.mp hε
          rcases this with rfl | rfl <;> simp
        rw [e1, hεs, mulVec_smul, mulVec_mulVec, hP, smul_mulVec, one_mulVec, smul_smul, smul_smul, show ε * η * ε * η = (ε * ε) * (η * η) by ring, hε, hη, one_mul, one_smul]
      · rcases hmomtr i.rev with h6 | ⟨_, h6⟩
        · rw [h6, h3]
          linarith
        · linarith [Real.pi_pos]
    · intro hP' i hvi h0
      obtain ⟨i, rfl⟩ := hhalf2 i hvi
      exact move _ _ (hplus hP' i (htrim2 i h0))
    · intro hP' i hvi h0
      obtain ⟨i, rfl⟩ := hhalf2 i hvi
      have hmm : ∀ j, o.momenta (firstHalf N j) = o.momenta (firstHalf N i) → o.momenta (secondHalf N j) = o.momenta (secondHalf N i) := by
        intro j hj
        rcases htrim2 i h0 with h6 | h6 <;> rcases hmomtr i with h3 | ⟨h3, h3'⟩ <;> rcases hmomtr j with h4 | ⟨h4, h4'⟩ <;>
          first | linarith [Real.pi_pos] | (exfalso; have := (hprop.range (secondHalf N j)).2; have := (hprop.range (secondHalf N i)).2; linarith [Real.pi_pos])
      rcases hminus hP' i (htrim2 i h0) with ⟨j, q1, q2, q3, q4⟩ | ⟨j, q1, q2, q3, q4⟩
      · refine .inl ⟨secondHalf N j, ?_, hmm j q2, by rw [hvel2, hvel2, q3], move _ _ q4⟩
        show N / 2 + j.val = N / 2 + i.val + 1
        omega
      · refine .inr ⟨secondHalf N j, ?_, hmm j q2, by rw [hvel2, hvel2, q3], move _ _ q4⟩
        show N / 2 + i.val = N / 2 + j.val + 1
        omega

end both

end Kwant.Leads
