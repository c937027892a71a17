import Verif.Leads.Halves

/-!
C158: the propagating modes of a lead with particle-hole symmetry (`make_proper_modes`, kwant/physics/leads.py l.731-794, 824-862), main theorems.
-/

set_option linter.unusedSectionVars false

namespace Kwant.Leads
open Matrix Complex

variable {n : ℕ}

/-- The relations between the modes before normalization. -/
structure PhFacts (ph : Matrix (Fin n) (Fin n) ℂ) {N : ℕ} (lam : Fin N → ℂ) (vel : Fin N → ℝ) (full : Matrix (Fin n) (Fin N) ℂ) : Prop where
  first : ∀ i : Fin (N / 2), 0 < -(lam (firstHalf N i)).arg → full.col (firstHalf N i.rev) = ph *ᵥ star (full.col (firstHalf N i)) ∧
    vel (firstHalf N i.rev) = vel (firstHalf N i) ∧ (lam (firstHalf N i.rev)).arg = -(lam (firstHalf N i)).arg
  first' : ∀ i : Fin (N / 2), -Real.pi < -(lam (firstHalf N i)).arg → -(lam (firstHalf N i)).arg < 0 → 0 < -(lam (firstHalf N i.rev)).arg
  second : ∀ i : Fin (N / 2), 0 < -(lam (secondHalf N i)).arg → full.col (secondHalf N i.rev) = ph *ᵥ star (full.col (secondHalf N i)) ∧
    vel (secondHalf N i.rev) = vel (secondHalf N i) ∧ (lam (secondHalf N i.rev)).arg = -(lam (secondHalf N i)).arg
  second' : ∀ i : Fin (N / 2), -Real.pi < -(lam (secondHalf N i)).arg → -(lam (secondHalf N i)).arg < 0 → 0 < -(lam (secondHalf N i.rev)).arg
  plus : ph * conjM ph = 1 → ∀ i, lam i = 1 ∨ lam i = -1 → ph *ᵥ star (full.col i) = full.col i
  minus : ph * conjM ph = -1 → ∀ i, lam i = 1 ∨ lam i = -1 →
    (∃ j, j.val = i.val + 1 ∧ lam j = lam i ∧ vel j = vel i ∧ full.col j = ph *ᵥ star (full.col i)) ∨
      ∃ j, i.val = j.val + 1 ∧ lam j = lam i ∧ vel j = vel i ∧ full.col i = ph *ᵥ star (full.col j)

section facts
variable {h hop : Matrix (Fin n) (Fin n) ℂ} {L : Linsys n} {u : Matrix (Fin n) (Fin L.r) ℂ} {N : ℕ} {lam : Fin N → ℂ} {psi : Matrix (Fin L.r ⊕ Fin L.r) (Fin N) ℂ}
  {full : Matrix (Fin n) (Fin N) ℂ} {vel : Fin N → ℝ} {trim : Fin N → ℕ} {ph : Matrix (Fin n) (Fin n) ℂ}

theorem star_smul_real (c : ℝ) (x : Fin n → ℂ) : star ((c : ℂ)⁻¹ • x) = (c : ℂ)⁻¹ • star x := by
  ext i
  simp

theorem mom_trim {z : ℂ} (hz : ‖z‖ = 1) (h0 : -z.arg = 0 ∨ -z.arg = -Real.pi) : z = 1 ∨ z = -1 := by
  rcases h0 with h0 | h0
  · exact .inl ((arg_zero_iff hz).mp (neg_eq_zero.mp h0))
  · refine .inr (arg_inj hz (by simp) ?_)
    rw [Complex.arg_neg_one]
    exact neg_injective h0

/-- Normalization -/
theorem PhFacts.spec (hp : PhFacts ph lam vel full) (hu : ∀ i, ‖lam i‖ = 1) {r : ℕ} (psi' : Matrix (Fin r ⊕ Fin r) (Fin N) ℂ) :
    ParticleHole ph (Proper.mk psi' (of fun i j => full i j / ((Real.sqrt |vel j| : ℝ) : ℂ)) vel fun i => -(lam i).arg) := by
  have key : ∀ i j, full.col j = ph *ᵥ star (full.col i) → vel j = vel i →
      PhPartner ph (Proper.mk psi' (of fun i j => full i j / ((Real.sqrt |vel j| : ℝ) : ℂ)) vel fun i => -(lam i).arg) i j := by
    intro i j h1 h2
    refine ⟨?_, h2⟩
    dsimp only
    rw [div_col, div_col, h1, h2, star_smul_real, mulVec_smul]
  refine ⟨?_, hp.first', ?_, hp.second', ?_, ?_⟩
  · intro i hi
    obtain ⟨h1, h2, h3⟩ := hp.first i hi
    exact ⟨key _ _ h1 h2, congrArg Neg.neg h3⟩
  · intro i hi
    obtain ⟨h1, h2, h3⟩ := hp.second i hi
    exact ⟨key _ _ h1 h2, congrArg Neg.neg h3⟩
  · intro hP i hi
    exact key _ _ (hp.plus hP i (mom_trim (hu i) hi)).symm rfl
  · intro hP i hi
    rcases hp.minus hP i (mom_trim (hu i) hi) with ⟨j, h1, h2, h3, h4⟩ | ⟨j, h1, h2, h3, h4⟩
    · exact .inl ⟨j, h1, by show -(lam j).arg = -(lam i).arg; rw [h2], key _ _ h4 h3⟩
    · exact .inr ⟨j, h1, by show -(lam j).arg = -(lam i).arg; rw [h2], key _ _ h4 h3.symm⟩

/-- Modes between two modes with the same momentum and velocity -/
theorem Sorted.between (hs : Sorted h hop L u lam psi full vel trim) {i j l : Fin N} (hij : lam j = lam i) (hv : vel j = vel i) (h1 : i ≤ l) (h2 : l ≤ j) :
    lam l = lam i ∧ vel l = vel i ∧ trim i ≤ trim l ∧ trim l ≤ trim j := by
  have hu := hs.unit
  have k1 := sortKey_le (hs.mono h1)
  have k2 := sortKey_le (hs.mono h2)
  by_cases hi : vel i < 0
  · have hj : vel j < 0 := by rw [hv]; exact hi
    have hl : vel l < 0 := (k2.1 hj).resolve_right id
    have a1 := k1.2.1 hi hl
    have a2 := k2.2.1 hl hj
    rw [hij, hv] at a2
    have e1 : -(lam l).arg = -(lam i).arg := by
      rcases a1 with a1 | ⟨a1, _⟩ <;> rcases a2 with a2 | ⟨a2, _⟩ <;> linarith
    have a1' := (a1.resolve_left (by rw [e1]; exact lt_irrefl _)).2
    have a2' := (a2.resolve_left (by rw [e1]; exact lt_irrefl _)).2
    have e2 : vel l = vel i := by
      rcases a1' with a1 | ⟨a1, _⟩ <;> rcases a2' with a2 | ⟨a2, _⟩ <;> linarith
    refine ⟨arg_inj (hu _) (hu _) (neg_injective e1), e2, ?_, ?_⟩
    · exact (a1'.resolve_left (by rw [e2]; exact lt_irrefl _)).2
    · exact (a2'.resolve_left (by rw [e2]; exact lt_irrefl _)).2
  · have hi' : 0 < vel i := lt_of_le_of_ne (not_lt.mp hi) (hs.nonzero i).symm
    have hj : 0 < vel j := by rw [hv]; exact hi'
    have hl : 0 < vel l := by
      refine lt_of_le_of_ne (not_lt.mp ?_) (hs.nonzero l).symm
      intro h3
      exact hi ((k1.1 h3).resolve_right id)
    have a1 := k1.2.2 hi' hl
    have a2 := k2.2.2 hl hj
    rw [hij, hv] at a2
    have e1 : -(lam l).arg = -(lam i).arg := by
      rcases a1 with a1 | ⟨a1, _⟩ <;> rcases a2 with a2 | ⟨a2, _⟩ <;> linarith
    have a1' := (a1.resolve_left (by rw [e1]; exact lt_irrefl _)).2
    have a2' := (a2.resolve_left (by rw [e1]; exact lt_irrefl _)).2
    have e2 : vel l = vel i := by
      rcases a1' with a1 | ⟨a1, _⟩ <;> rcases a2' with a2 | ⟨a2, _⟩ <;> linarith
    refine ⟨arg_inj (hu _) (hu _) (neg_injective e1), e2, ?_, ?_⟩
    · exact (a1'.resolve_left (by rw [e2]; exact lt_irrefl _)).2
    · exact (a2'.resolve_left (by rw [e2]; exact lt_irrefl _)).2

/-- Modes with consecutive values of the last component of the key are neighbours. -/
theorem Sorted.adjacent (hs : Sorted h hop L u lam psi full vel trim) {i j : Fin N} (hij : lam j = lam i) (hv : vel j = vel i) (ht : trim j = trim i + 1)
    (hinj : ∀ a b, lam a = lam i → lam b = lam i → vel a = vel b → trim a = trim b → a = b) : j.val = i.val + 1 := by
  have hlt : i < j := by
    by_contra h0
    have := hs.between (i := j) (j := i) (l := i) hij.symm hv.symm (not_lt.mp h0) le_rfl
    omega
  by_contra hne
  have hlt' : i.val < j.val := hlt
  have hl : i.val + 1 < j.val := by omega
  have h1 : i ≤ ⟨i.val + 1, by omega⟩ := by
    show i.val ≤ i.val + 1
    omega
  have h2 : (⟨i.val + 1, by omega⟩ : Fin N) ≤ j := by
    show i.val + 1 ≤ j.val
    omega
  obtain ⟨b1, b2, b3, b4⟩ := hs.between hij hv h1 h2
  rcases Nat.lt_or_ge (trim i) (trim ⟨i.val + 1, by omega⟩) with h3 | h3
  · have := congrArg Fin.val (hinj _ j b1 hij (by rw [b2, hv]) (by omega))
    simp only at this
    omega
  · have := congrArg Fin.val (hinj _ i b1 rfl b2 (by omega))
    simp only at this
    omega

/-- The facts about the modes at momentum `0` and `π`, in terms of sorted modes -/
structure TrimAll (ph : Matrix (Fin n) (Fin n) ℂ) {N : ℕ} (lam : Fin N → ℂ) (vel : Fin N → ℝ) (trim : Fin N → ℕ) (full : Matrix (Fin n) (Fin N) ℂ) : Prop where
  plus : ph * conjM ph = 1 → ∀ i, lam i = 1 ∨ lam i = -1 → ph *ᵥ star (full.col i) = full.col i
  inj : ph * conjM ph = -1 → ∀ i j, lam i = 1 ∨ lam i = -1 → lam i = lam j → vel i = vel j → trim i = trim j → i = j
  even : ph * conjM ph = -1 → ∀ i, lam i = 1 ∨ lam i = -1 → trim i % 2 = 0 → ∃ j, lam j = lam i ∧ vel j = vel i ∧ trim j = trim i + 1 ∧ full.col j = ph *ᵥ star (full.col i)
  odd : ph * conjM ph = -1 → ∀ i, lam i = 1 ∨ lam i = -1 → trim i % 2 = 1 → ∃ j, lam j = lam i ∧ vel j = vel i ∧ trim i = trim j + 1 ∧ full.col i = ph *ᵥ star (full.col j)

theorem TrimAll.perm (ht : TrimAll ph lam vel trim full) (σ : Equiv.Perm (Fin N)) : TrimAll ph (lam ∘ σ) (vel ∘ σ) (trim ∘ σ) (full.submatrix id σ) := by
  refine ⟨fun hP i hi => ht.plus hP (σ i) hi, fun hP i j hi h1 h2 h3 => σ.injective (ht.inj hP _ _ hi h1 h2 h3), ?_, ?_⟩
  · intro hP i hi h0
    obtain ⟨j, h1, h2, h3, h4⟩ := ht.even hP (σ i) hi h0
    refine ⟨σ.symm j, ?_⟩
    have e1 : (full.submatrix id σ).col (σ.symm j) = full.col j := by
      ext x
      simp [Matrix.col]
    rw [e1]
    simp only [Function.comp_apply, Equiv.apply_symm_apply]
    exact ⟨h1, h2, h3, h4⟩
  · intro hP i hi h0
    obtain ⟨j, h1, h2, h3, h4⟩ := ht.odd hP (σ i) hi h0
    refine ⟨σ.symm j, ?_⟩
    have e1 : (full.submatrix id σ).col (σ.symm j) = full.col j := by
      ext x
      simp [Matrix.col]
    rw [e1]
    simp only [Function.comp_apply, Equiv.apply_symm_apply]
    exact ⟨h1, h2, h3, h4⟩

/-- From clusters to all modes -/
theorem trimAll_of {r : ℕ} {e : ModeNum n} (he : e.Ok) (hsep : Separated e lam) {m : Modes n r N} (hcl : ∀ c ∈ clusters e lam, IsCluster lam m.vel c)
    (hf : ∀ c ∈ clusters e lam, (∀ i, lam (c.get i) = 1 ∨ lam (c.get i) = -1) → TrimFacts ph (m.take c.get).full (m.take c.get).vel (m.take c.get).trim) :
    TrimAll ph lam m.vel m.trim m.full := by
  obtain ⟨hn, hall⟩ := clusters_split e he hsep
  have key : ∀ i, lam i = 1 ∨ lam i = -1 → ∃ c ∈ clusters e lam, ∃ a : Fin c.length, c.get a = i ∧ (∀ b, lam (c.get b) = 1 ∨ lam (c.get b) = -1) := by
    intro i hi
    obtain ⟨c, hc, hic⟩ := List.mem_flatten.mp (hall i)
    obtain ⟨a, ha⟩ := List.get_of_mem hic
    refine ⟨c, hc, a, ha, fun b => ?_⟩
    rw [(hcl c hc).same b a, ha]
    exact hi
  refine ⟨?_, ?_, ?_, ?_⟩
  · intro hP i hi
    obtain ⟨c, hc, a, rfl, hb⟩ := key i hi
    exact (hf c hc hb).plus hP a
  · intro hP i j hi h1 h2 h3
    obtain ⟨c, hc, a, rfl, hb⟩ := key i hi
    obtain ⟨b, rfl⟩ := (hcl c hc).all a j h1.symm
    rw [(hf c hc hb).inj hP a b h2 h3]
  · intro hP i hi h0
    obtain ⟨c, hc, a, rfl, hb⟩ := key i hi
    obtain ⟨b, h2, h3, h4⟩ := (hf c hc hb).even hP a h0
    exact ⟨c.get b, (hcl c hc).same _ _, h2, h3, h4⟩
  · intro hP i hi h0
    obtain ⟨c, hc, a, rfl, hb⟩ := key i hi
    obtain ⟨b, h2, h3, h4⟩ := (hf c hc hb).odd hP a h0
    exact ⟨c.get b, (hcl c hc).same _ _, h2, h3, h4⟩

/-- The particle-hole part of `partners` on sorted modes -/
theorem Sorted.ph_good (hs : Sorted h hop L u lam psi full vel trim) (hh : h.IsHermitian) (hF : Faithful h hop L u) {e : ModeNum n} (he : e.Ok)
    (he1 : e.eps ≤ 1) (hts : TrimSep e lam) (hr : Related ph true true h hop h hop) (h1 : OneSpeedAway h hop) (h2 : PiAlone h hop) (ht : TrimAll ph lam vel trim full) :
    ∃ full' psi', partners e ⟨none, some ph, none⟩ (fun i => -(lam i).arg) (full, psi) = (full', psi') ∧ Sorted h hop L u lam psi' full' vel trim ∧ PhFacts ph lam vel full' := by
  obtain ⟨a1, a2, a3⟩ := hs.halfFirst.ph_good (by omega) hh hF he he1 hs.good hs.unit hts hr h1 h2
  have m1 := fun i => hs.halfFirst.ph_mom (by omega) hs.good hs.unit hr h1 h2 i
  have m2 := fun i => hs.halfSecond.ph_mom (by omega) hs.good hs.unit hr h1 h2 i
  set s1 := phHalf e ph 0 (by omega) (fun i => -(lam i).arg) (full, psi) with hs1
  obtain ⟨b1, b2, b3⟩ := hs.halfSecond.ph_good (by omega) hh hF he he1 a1 hs.unit hts hr h1 h2
  have hpf : ∀ i, part 0 (by omega) i = firstHalf N i := fun i => Fin.ext (show 0 + i.val = i.val by omega)
  have hps : ∀ i, part (N / 2) (by omega) i = secondHalf N i := fun i => rfl
  simp only [hpf] at a2 m1
  simp only [hps] at b2 m2
  set s2 := phHalf e ph (N / 2) (by omega) (fun i => -(lam i).arg) (s1.1, s1.2) with hs2
  have htr : ∀ j, lam j = 1 ∨ lam j = -1 → s2.1.col j = full.col j := by
    intro j hj
    have hno : ¬(-(lam j).arg < 0 ∧ lam j ≠ -1) := by
      rintro ⟨q1, q2⟩
      rw [hj.resolve_right q2, Complex.arg_one] at q1
      simp at q1
    rw [b3 j fun q => hno q.2, a3 j fun q => hno q.2]
  refine ⟨s2.1, s2.2, rfl, ⟨b1, hs.unit, hs.even, hs.nonzero, hs.half, hs.mono⟩, ⟨?_, fun i => (m1 i).2, ?_, fun i => (m2 i).2, ?_, ?_⟩⟩
  · intro i hi
    obtain ⟨_, q2, q3⟩ := (m1 i).1 hi
    refine ⟨?_, q2, q3⟩
    rw [b3, b3, a2 i hi, a3]
    · rintro ⟨_, q, _⟩
      linarith
    · rintro ⟨q, _⟩
      have := hs.first i
      linarith
    · rintro ⟨q, _⟩
      have := hs.first i.rev
      linarith
  · intro i hi
    obtain ⟨_, q2, q3⟩ := (m2 i).1 hi
    refine ⟨?_, q2, q3⟩
    rw [b2 i hi, b3 (secondHalf N i)]
    rintro ⟨_, q, _⟩
    linarith
  · intro hP i hi
    rw [htr i hi]
    exact ht.plus hP i hi
  · intro hP i hi
    have hinj : ∀ a b, lam a = lam i → lam b = lam i → vel a = vel b → trim a = trim b → a = b := by
      intro a b q1 q2 q3 q4
      exact ht.inj hP a b (by rw [q1]; exact hi) (q1.trans q2.symm) q3 q4
    rcases Nat.mod_two_eq_zero_or_one (trim i) with h0 | h0
    · obtain ⟨j, q1, q2, q3, q4⟩ := ht.even hP i hi h0
      refine .inl ⟨j, hs.adjacent q1 q2 q3 hinj, q1, q2, ?_⟩
      rw [htr i hi, htr j (by rw [q1]; exact hi)]
      exact q4
    · obtain ⟨j, q1, q2, q3, q4⟩ := ht.odd hP i hi h0
      refine .inr ⟨j, hs.adjacent q1.symm q2.symm q3 (by rw [q1]; exact hinj), q1, q2, ?_⟩
      rw [htr i hi, htr j (by rw [q1]; exact hi)]
      exact q4

end facts

/-! ### Main theorems -/

section main
variable {h hop : Matrix (Fin n) (Fin n) ℂ} {L : Linsys n} {u : Matrix (Fin n) (Fin L.r) ℂ}

theorem clusterStep_ph (e : ModeNum n) (ph : Matrix (Fin n) (Fin n) ℂ) {tr ch : Option (Matrix (Fin n) (Fin n) ℂ)} (htc : tr = none → ch = none) {r k : ℕ} (m m' : Modes n r k) :
    clusterStep e ⟨tr, some ph, ch⟩ m = .ok m' ↔ ∃ m1, diagStep e m = .ok m1 ∧ trimStep e (some ph) m1 = .ok m' := by
  have h1 : ∀ x : Modes n r k, chiralStep ch tr x = .ok x := by
    intro x
    cases tr with
    | none => rw [htc rfl]; rfl
    | some t => cases ch <;> rfl
  constructor
  · intro h0
    refine ⟨_, rfl, ?_⟩
    rw [clusterStep] at h0
    dsimp only at h0
    split at h0
    · cases h0
    · rename_i x hx
      rw [h1] at h0
      rw [← h0]
      exact hx
  · rintro ⟨m1, h2, h3⟩
    cases h2
    rw [clusterStep]
    dsimp only
    rw [h3]
    exact h1 _

/-- The loop with particle-hole symmetry -/
theorem ph_loop (hF : Faithful h hop L u) {e : ModeNum n} (he : e.Ok) (hep : e.PhsOk) (he1 : e.eps ≤ 1) {N : ℕ} {lam : Fin N → ℂ}
    {psi : Matrix (Fin L.r ⊕ Fin L.r) (Fin N) ℂ} (hi : PropInput L lam psi) (hs : Separated e lam) (hts : TrimSep e lam) {ph : Matrix (Fin n) (Fin n) ℂ}
    (hr : Related ph true true h hop h hop) (hgap : SpeedGap e.velEps h hop) {tr ch : Option (Matrix (Fin n) (Fin n) ℂ)} (htc : tr = none → ch = none)
    {junk : Fin N → ℝ} {m : Modes n L.r N} (hm : runClusters e ⟨tr, some ph, ch⟩ (clusters e lam) ⟨psi, L.extract psi lam, lam, junk, fun _ => 0⟩ = .ok m) :
    m.lam = lam ∧ Good h hop u L.v lam m.psi m.full m.vel ∧ TrimAll ph lam m.vel m.trim m.full := by
  obtain ⟨hn, hall⟩ := clusters_split e he hs
  rw [runClusters_eq, runSteps_comp (diagStep e) (trimStep e (some ph)) _ (fun m m' => clusterStep_ph e ph htc m m') hn hall] at hm
  obtain ⟨m1, hm1, hm2⟩ := hm
  obtain ⟨g1, g2, g3, _⟩ := diag_loop e he hF hi hs hm1
  have hcl := diag_clusters e he hF hi hs hm1
  obtain ⟨q1, q2, q3, q4⟩ := trim_loop he hep he1 hi.unit hts hr hgap _ _ _ hn g2 g1 (fun c hc => ⟨clusters_ne_nil e he hs c hc, hcl c hc⟩) hm2
  exact ⟨q1, q3, trimAll_of he hs (fun c hc => by rw [q2]; exact hcl c hc) q4⟩

/-- C158: with particle-hole symmetry (and no other symmetry) the modes are proper modes and related by this symmetry, if at every momentum other than `0` and `π` there is only one speed
and modes at momentum `π` do not coexist with modes at momenta other than `0` and `π`. -/
theorem C158_modes_partial (hh : h.IsHermitian) (en : Numerics n) (hen : en.Ok hop) {stab : Option (Option Bool × Bool)}
    (hL : setupLinsys en h hop stab = .ok L) (hc : CutExact en hop) (hst : ∀ s0, stab = some (s0, true) → NoInfinite h hop)
    (e : ModeNum n) (he : e.Ok) (hep : e.PhsOk) (he1 : e.eps ≤ 1) {N : ℕ} {lam : Fin N → ℂ} {psi : Matrix (Fin L.r ⊕ Fin L.r) (Fin N) ℂ} (hi : PropInput L lam psi)
    (hs : Separated e lam) (hts : TrimSep e lam) {ph : Matrix (Fin n) (Fin n) ℂ} (hr : Related ph true true h hop h hop) (hgap : SpeedGap e.velEps h hop)
    (h1 : OneSpeedAway h hop) (h2 : PiAlone h hop) (junk : Fin N → ℝ) {o : Proper n L.r N}
    (ho : makeProperModes e ⟨none, some ph, none⟩ junk lam psi L.extract = .ok o) : ProperSpec h hop L o ∧ ParticleHole ph o := by
  obtain ⟨u, hF⟩ := setup_faithful en hen hL hc hst
  rw [makeProperModes] at ho
  split at ho
  · cases ho
  rename_i m hm
  split at ho
  · rename_i hv
    obtain ⟨g1, g2, g3⟩ := ph_loop hF he hep he1 hi hs hts hr hgap (fun _ => rfl) hm
    rw [g1] at ho
    dsimp only at ho
    generalize hσ : Tuple.sort (sortKey m.vel (fun i => -(lam i).arg) m.trim) = σ at ho
    have hsrt := g2.sorted e he hi.unit hv m.trim hσ.symm
    obtain ⟨full', psi', p1, p2, p3⟩ := hsrt.ph_good hh hF he he1 (fun i => hts (σ i)) hr h1 h2 (g3.perm σ)
    have p1' : partners e ⟨none, some ph, none⟩ ((fun i => -(lam i).arg) ∘ σ) (m.full.submatrix id σ, m.psi.submatrix id σ) = (full', psi') := p1
    rw [p1'] at ho
    have ho' := Except.ok.inj ho
    rw [← ho']
    exact ⟨finish hF e he hi.unit hv (mom := fun i => -(lam i).arg) rfl hσ.symm p2.good, p3.spec (fun i => hi.unit (σ i)) _⟩
  · cases ho

open Classical in
/-- The number of modes at momentum `0` (`μ = 1`) or `π` (`μ = -1`) -/
noncomputable def countAt {N : ℕ} (lam : Fin N → ℂ) (μ : ℂ) : ℕ := (Finset.univ.filter fun i => lam i = μ).card

theorem IsCluster.count {N : ℕ} {lam : Fin N → ℂ} {vel : Fin N → ℝ} {c : List (Fin N)} (hc : IsCluster lam vel c) (i : Fin c.length) : countAt lam (lam (c.get i)) = c.length := by
  classical
  rw [countAt]
  have h1 : (Finset.univ : Finset (Fin c.length)).card = c.length := by simp
  rw [← h1]
  symm
  refine Finset.card_bij (fun a _ => c.get a) ?_ ?_ ?_
  · intro a _
    rw [Finset.mem_filter]
    exact ⟨Finset.mem_univ _, hc.same a i⟩
  · intro a _ b _ hab
    exact hc.inj hab
  · intro j hj
    rw [Finset.mem_filter] at hj
    obtain ⟨a, ha⟩ := hc.all i j hj.2
    exact ⟨a, Finset.mem_univ _, ha⟩

/-- C158: particle-hole symmetry causes an error if and only if the number of modes at momentum `0` or at momentum `π` is odd. -/
theorem C158_error (en : Numerics n) (hen : en.Ok hop) {stab : Option (Option Bool × Bool)}
    (hL : setupLinsys en h hop stab = .ok L) (hc : CutExact en hop) (hst : ∀ s0, stab = some (s0, true) → NoInfinite h hop)
    (e : ModeNum n) (he : e.Ok) (hep : e.PhsOk) (he1 : e.eps ≤ 1) {N : ℕ} {lam : Fin N → ℂ} {psi : Matrix (Fin L.r ⊕ Fin L.r) (Fin N) ℂ} (hi : PropInput L lam psi)
    (hs : Separated e lam) (hts : TrimSep e lam) {ph : Matrix (Fin n) (Fin n) ℂ} (hr : Related ph true true h hop h hop) (hsq : ph * conjM ph = 1 ∨ ph * conjM ph = -1)
    (hgap : SpeedGap e.velEps h hop) {tr ch : Option (Matrix (Fin n) (Fin n) ℂ)} (htc : tr = none → ch = none) (junk : Fin N → ℝ) :
    ((∃ o, makeProperModes e ⟨tr, some ph, ch⟩ junk lam psi L.extract = .ok o) ↔
      (∃ o, makeProperModes e ⟨none, none, none⟩ junk lam psi L.extract = .ok o) ∧ countAt lam 1 % 2 = 0 ∧ countAt lam (-1) % 2 = 0) ∧
    (makeProperModes e ⟨tr, some ph, ch⟩ junk lam psi L.extract = .error .assertionError ↔ countAt lam 1 % 2 = 1 ∨ countAt lam (-1) % 2 = 1) := by
  obtain ⟨u, hF⟩ := setup_faithful en hen hL hc hst
  obtain ⟨hn, hall⟩ := clusters_split e he hs
  obtain ⟨m1, hm1⟩ := runSteps_ok (diagStep e) (clusters e lam) (⟨psi, L.extract psi lam, lam, junk, fun _ => 0⟩ : Modes n L.r N) hn fun c _ => ⟨_, rfl⟩
  obtain ⟨g1, g2, g3, _⟩ := diag_loop e he hF hi hs hm1
  have hcl := diag_clusters e he hF hi hs hm1
  have hne := clusters_ne_nil e he hs
  have hno : (∃ o, makeProperModes e ⟨none, none, none⟩ junk lam psi L.extract = .ok o) ↔ velCheck e m1.vel = true := by
    rw [makeProperModes, runClusters_eq]
    have : runSteps (clusterStep e ⟨none, none, none⟩) (clusters e lam) (⟨psi, L.extract psi lam, lam, junk, fun _ => 0⟩ : Modes n L.r N) = .ok m1 := hm1
    rw [this]
    dsimp only
    split
    · rename_i h0
      exact ⟨fun _ => h0, fun _ => ⟨_, rfl⟩⟩
    · rename_i h0
      constructor
      · rintro ⟨_, h2⟩
        cases h2
      · intro h2
        exact absurd h2 h0
  -- the outcome of one step
  have hstep : ∀ c ∈ clusters e lam, (c.length % 2 = 1 ∧ (∀ i, lam (c.get i) = 1 ∨ lam (c.get i) = -1) ∧ trimStep e (some ph) (m1.take c.get) = .error .assertionError) ∨
      ((∀ i, lam (c.get i) = 1 ∨ lam (c.get i) = -1) → c.length % 2 = 0) ∧ ∃ o, trimStep e (some ph) (m1.take c.get) = .ok o := by
    intro c hc'
    have hc0 := hne c hc'
    have hk := List.length_pos_of_ne_nil hc0
    have hcc := hcl c hc'
    by_cases hμ : ∀ i, lam (c.get i) = 1 ∨ lam (c.get i) = -1
    · have hts := trimStep_trim (ph := ph) he1 he.eps (m := m1.take c.get) (μ := lam (c.get ⟨0, hk⟩)) (fun i => by
        show m1.lam (c.get i) = _
        rw [g2]
        exact hcc.same _ _) hk (hμ _)
      rw [hts]
      by_cases hodd : c.length % 2 = 1
      · rw [if_pos hodd]
        exact .inl ⟨hodd, hμ, rfl⟩
      · rw [if_neg hodd]
        obtain ⟨s, hs'⟩ := hcc.trim_ok he hep g1 hi.unit hr hsq hgap hc0 hμ
        rw [hs']
        exact .inr ⟨fun _ => by omega, _, rfl⟩
    · right
      refine ⟨fun h0 => absurd h0 hμ, ?_⟩
      push Not at hμ
      obtain ⟨i, hi1, hi2⟩ := hμ
      rw [trimStep_other hk]
      · exact ⟨_, rfl⟩
      · intro j
        show |(m1.lam (c.get j)).re| ≤ _
        rw [g2, hcc.same j i]
        exact ((hts (c.get i)).resolve_left hi1).resolve_left hi2
  -- the numbers of modes
  have hcount : ∀ μ : ℂ, μ = 1 ∨ μ = -1 → countAt lam μ = 0 ∨ ∃ c ∈ clusters e lam, countAt lam μ = c.length ∧ ∀ i, lam (c.get i) = μ := by
    intro μ _
    by_cases hex : ∃ i, lam i = μ
    · right
      obtain ⟨i, hi'⟩ := hex
      obtain ⟨c, hc', hic⟩ := List.mem_flatten.mp (hall i)
      obtain ⟨a, rfl⟩ := List.get_of_mem hic
      refine ⟨c, hc', ?_, fun b => by rw [(hcl c hc').same b a, hi']⟩
      rw [← hi']
      exact (hcl c hc').count a
    · left
      push Not at hex
      rw [countAt, Finset.card_eq_zero]
      exact Finset.filter_eq_empty_iff.mpr fun i _ => hex i
  have hcs : ∀ (m' : Modes n L.r N), runClusters e ⟨tr, some ph, ch⟩ (clusters e lam) ⟨psi, L.extract psi lam, lam, junk, fun _ => 0⟩ = .ok m' ↔
      runSteps (trimStep e (some ph)) (clusters e lam) m1 = .ok m' := by
    intro m'
    rw [runClusters_eq, runSteps_comp (diagStep e) (trimStep e (some ph)) _ (fun m m' => clusterStep_ph e ph htc m m') hn hall]
    constructor
    · rintro ⟨m1', h1, h2⟩
      rw [hm1] at h1
      cases h1
      exact h2
    · intro h2
      exact ⟨m1, hm1, h2⟩
  have hodd_of : ∀ c ∈ clusters e lam, c.length % 2 = 1 → (∀ i, lam (c.get i) = 1 ∨ lam (c.get i) = -1) → countAt lam 1 % 2 = 1 ∨ countAt lam (-1) % 2 = 1 := by
    intro c hc' ho hμ
    have hk := List.length_pos_of_ne_nil (hne c hc')
    have := (hcl c hc').count ⟨0, hk⟩
    rcases hμ ⟨0, hk⟩ with h1 | h1
    · left
      rw [← h1, this, ho]
    · right
      rw [← h1, this, ho]
  by_cases hpar : countAt lam 1 % 2 = 1 ∨ countAt lam (-1) % 2 = 1
  · -- one of the steps fails
    have hbad : ∃ c ∈ clusters e lam, trimStep e (some ph) (m1.take c.get) = .error .assertionError := by
      have : ∃ μ : ℂ, (μ = 1 ∨ μ = -1) ∧ countAt lam μ % 2 = 1 := by
        rcases hpar with h1 | h1
        · exact ⟨1, .inl rfl, h1⟩
        · exact ⟨-1, .inr rfl, h1⟩
      obtain ⟨μ, hμ, hodd⟩ := this
      rcases hcount μ hμ with h1 | ⟨c, hc', h1, h2⟩
      · rw [h1] at hodd
        simp at hodd
      · refine ⟨c, hc', ?_⟩
        rcases hstep c hc' with h3 | ⟨h3, _⟩
        · exact h3.2.2
        · have := h3 fun i => by rw [h2]; exact hμ
          omega
    have herr : runClusters e ⟨tr, some ph, ch⟩ (clusters e lam) ⟨psi, L.extract psi lam, lam, junk, fun _ => 0⟩ = .error .assertionError := by
      match hm : runClusters e ⟨tr, some ph, ch⟩ (clusters e lam) ⟨psi, L.extract psi lam, lam, junk, fun _ => 0⟩ with
      | .ok m' =>
        exfalso
        obtain ⟨c, hc', h3⟩ := hbad
        obtain ⟨st, _⟩ := runSteps_spec _ _ _ _ hn ((hcs m').mp hm)
        rw [st c hc'] at h3
        cases h3
      | .error x =>
        rw [runClusters_eq] at hm
        obtain ⟨c, hc', h3⟩ := runSteps_error _ _ _ hn hm
        obtain ⟨st, _⟩ := runSteps_spec _ _ _ _ hn hm1
        rcases hstep c hc' with ⟨_, _, h4⟩ | ⟨_, o, h4⟩
        · have h5 : clusterStep e ⟨tr, some ph, ch⟩ ((⟨psi, L.extract psi lam, lam, junk, fun _ => 0⟩ : Modes n L.r N).take c.get) = .error .assertionError := by
            rw [clusterStep]
            have h6 : rotStep e (orthStep e ((⟨psi, L.extract psi lam, lam, junk, fun _ => 0⟩ : Modes n L.r N).take c.get)) = m1.take c.get := Except.ok.inj (st c hc')
            dsimp only
            rw [h6, h4]
          rw [h5] at h3
          cases h3
          rfl
        · have h5 := (clusterStep_ph e ph htc ((⟨psi, L.extract psi lam, lam, junk, fun _ => 0⟩ : Modes n L.r N).take c.get) o).mpr ⟨_, st c hc', h4⟩
          rw [h5] at h3
          cases h3
    have hres : makeProperModes e ⟨tr, some ph, ch⟩ junk lam psi L.extract = .error .assertionError := by
      rw [makeProperModes, herr]
    rw [hres]
    refine ⟨⟨?_, ?_⟩, fun _ => hpar, fun _ => rfl⟩
    · rintro ⟨o, ho⟩
      cases ho
    · rintro ⟨_, h1, h2⟩
      omega
  · push Not at hpar
    have hgood : ∃ m', runSteps (trimStep e (some ph)) (clusters e lam) m1 = .ok m' := by
      refine runSteps_ok _ _ _ hn fun c hc' => ?_
      rcases hstep c hc' with ⟨h3, h4, _⟩ | ⟨_, h3⟩
      · exfalso
        rcases hodd_of c hc' h3 h4 with h5 | h5
        · exact hpar.1 h5
        · exact hpar.2 h5
      · exact h3
    obtain ⟨m', hm'⟩ := hgood
    obtain ⟨q1, q2, _, _⟩ := trim_loop he hep he1 hi.unit hts hr hgap _ _ _ hn g2 g1 (fun c hc => ⟨hne c hc, hcl c hc⟩) hm'
    rw [makeProperModes, (hcs m').mpr hm', hno]
    dsimp only
    rw [q2]
    refine ⟨?_, ?_⟩
    · split
      · rename_i hv
        exact ⟨fun _ => ⟨hv, by omega, by omega⟩, fun _ => ⟨_, rfl⟩⟩
      · rename_i hv
        constructor
        · rintro ⟨_, h2⟩
          cases h2
        · rintro ⟨h2, _⟩
          exact absurd h2 hv
    · constructor
      · intro h2
        split at h2 <;> cases h2
      · intro h2
        exfalso
        rcases h2 with h2 | h2
        · exact hpar.1 h2
        · exact hpar.2 h2

end main

end Kwant.Leads
