import Verif.Leads.PartHole

/-!
C158: the particle-hole partners of the modes at momenta other than `0` and `π` (`make_proper_modes`, kwant/physics/leads.py l.831-862).
-/

set_option linter.unusedSectionVars false

namespace Kwant.Leads
open Matrix Complex

variable {n : ℕ}

/-- A position in the half that begins at `off`. -/
def part {N : ℕ} (off : ℕ) (hN : off + N / 2 ≤ N) (i : Fin (N / 2)) : Fin N := ⟨off + i.val, by omega⟩

theorem part_inj {N off : ℕ} (hN : off + N / 2 ≤ N) : Function.Injective (part off hN) := by
  intro i j h
  have := congrArg Fin.val h
  simp only [part] at this
  exact Fin.ext (by omega)

theorem mirror_part {N off : ℕ} (hN : off + N / 2 ≤ N) (i : Fin (N / 2)) : mirror off hN (part off hN i) = part off hN i.rev := by
  have h1 : off ≤ (part off hN i).val ∧ (part off hN i).val < off + N / 2 := by
    simp only [part]
    omega
  rw [mirror, dif_pos h1]
  ext
  simp only [part, Fin.val_rev]
  omega

/-- All modes that move in one direction (`s`), in the order in which they are sorted. -/
structure IsHalf {N : ℕ} (lam : Fin N → ℂ) (vel : Fin N → ℝ) (off : ℕ) (s : ℝ) : Prop where
  sign : s = 1 ∨ s = -1
  mem : ∀ j, (off ≤ j.val ∧ j.val < off + N / 2) ↔ s * vel j < 0
  mono : ∀ i j, i ≤ j → s * vel i < 0 → s * vel j < 0 → s * (-(lam i).arg) < s * (-(lam j).arg) ∨ ((lam i).arg = (lam j).arg ∧ vel i ≤ vel j)

section half
variable {h hop : Matrix (Fin n) (Fin n) ℂ} {L : Linsys n} {u : Matrix (Fin n) (Fin L.r) ℂ} {N : ℕ} {lam : Fin N → ℂ} {psi : Matrix (Fin L.r ⊕ Fin L.r) (Fin N) ℂ}
  {full : Matrix (Fin n) (Fin N) ℂ} {vel : Fin N → ℝ} {trim : Fin N → ℕ} {ph : Matrix (Fin n) (Fin n) ℂ}

theorem Sorted.halfFirst (hs : Sorted h hop L u lam psi full vel trim) : IsHalf lam vel 0 1 := by
  refine ⟨.inl rfl, ?_, ?_⟩
  · intro j
    rw [one_mul, hs.half]
    have := hs.even
    omega
  · intro i j hij hi hj
    rw [one_mul] at hi hj
    rw [one_mul, one_mul]
    rcases (sortKey_le (hs.mono hij)).2.1 hi hj with h1 | ⟨h1, h2⟩
    · exact .inl h1
    · refine .inr ⟨neg_injective h1, ?_⟩
      rcases h2 with h2 | h2
      · exact h2.le
      · exact h2.1.le

theorem Sorted.halfSecond (hs : Sorted h hop L u lam psi full vel trim) : IsHalf lam vel (N / 2) (-1) := by
  refine ⟨.inr rfl, ?_, ?_⟩
  · intro j
    have h1 : -1 * vel j < 0 ↔ ¬vel j < 0 := by
      have := hs.nonzero j
      constructor
      · intro h0
        linarith
      · intro h0
        have := lt_of_le_of_ne (not_lt.mp h0) this.symm
        linarith
    rw [h1, hs.half]
    have := hs.even
    have := j.2
    omega
  · intro i j hij hi hj
    rcases (sortKey_le (hs.mono hij)).2.2 (by linarith) (by linarith) with h1 | ⟨h1, h2⟩
    · exact .inl (by linarith)
    · refine .inr ⟨neg_injective h1, ?_⟩
      rcases h2 with h2 | h2
      · exact h2.le
      · exact h2.1.le

theorem IsHalf.part_neg {off : ℕ} {s : ℝ} (hf : IsHalf lam vel off s) (hN : off + N / 2 ≤ N) (i : Fin (N / 2)) : s * vel (part off hN i) < 0 := by
  rw [← hf.mem]
  simp only [part]
  omega

theorem IsHalf.part_surj {off : ℕ} {s : ℝ} (hf : IsHalf lam vel off s) (hN : off + N / 2 ≤ N) {j : Fin N} (hj : s * vel j < 0) : ∃ i, part off hN i = j := by
  rw [← hf.mem] at hj
  exact ⟨⟨j.val - off, by omega⟩, Fin.ext (show off + (j.val - off) = j.val by omega)⟩

theorem IsHalf.dir {off : ℕ} {s : ℝ} (hf : IsHalf lam vel off s) {k : ℕ} {sel : Fin k → Fin N} (hj : ∀ a, s * vel (sel a) < 0) :
    (∀ a, vel (sel a) < 0) ∨ ∀ a, 0 < vel (sel a) := by
  rcases hf.sign with rfl | rfl
  · left
    intro a
    have := hj a
    linarith
  · right
    intro a
    have := hj a
    linarith

theorem IsHalf.mul_pos {off : ℕ} {s : ℝ} (hf : IsHalf lam vel off s) {i j : Fin N} (hi : s * vel i < 0) (hj : s * vel j < 0) : 0 < vel i * vel j := by
  have h1 := mul_pos_of_neg_of_neg hi hj
  have h2 : s * vel i * (s * vel j) = (s * s) * (vel i * vel j) := by ring
  have h3 : s * s = 1 := by rcases hf.sign with rfl | rfl <;> norm_num
  rw [h2, h3, one_mul] at h1
  exact h1

theorem Good.oneSpeedAway (hg : Good h hop u L.v lam psi full vel) (hu : ∀ i, ‖lam i‖ = 1) (h1 : OneSpeedAway h hop) {i j : Fin N}
    (hij : lam i = lam j) (hi1 : lam i ≠ 1) (hi2 : lam i ≠ -1) (hv : 0 < vel i * vel j) : vel i = vel j :=
  h1 (lam i) _ _ (hu i) hi1 hi2 ⟨_, hg.ne_zero i, hg.velState hu i⟩ ⟨_, hg.ne_zero j, by rw [hij]; exact hg.velState hu j⟩ hv

theorem arg_zero_iff {z : ℂ} (hz : ‖z‖ = 1) : z.arg = 0 ↔ z = 1 := by
  constructor
  · intro h0
    exact arg_inj hz (by simp) (by rw [h0, Complex.arg_one])
  · rintro rfl
    exact Complex.arg_one

open Classical in
/-- In each half the modes at opposite momenta are in opposite order. -/
theorem IsHalf.ph_match {off : ℕ} {s : ℝ} (hf : IsHalf lam vel off s) (hN : off + N / 2 ≤ N) (hg : Good h hop u L.v lam psi full vel) (hu : ∀ i, ‖lam i‖ = 1)
    (hr : Related ph true true h hop h hop) (h1 : OneSpeedAway h hop) (hne : ∀ j, lam j ≠ -1) (i : Fin (N / 2)) :
    (lam (part off hN i)).arg = -(lam (part off hN i.rev)).arg ∧ (lam (part off hN i) ≠ 1 → vel (part off hN i) = vel (part off hN i.rev)) := by
  have hss : s * s = 1 := by rcases hf.sign with rfl | rfl <;> norm_num
  have hs0 : s ≠ 0 := by rintro rfl; norm_num at hss
  set w : Fin N → ℝ := fun j => if (lam j).arg = 0 then 0 else vel j with hw
  set a : Fin (N / 2) → ℝ ×ₗ ℝ := fun i => toLex (s * -(lam (part off hN i)).arg, w (part off hN i)) with ha
  set b : Fin (N / 2) → ℝ ×ₗ ℝ := fun i => toLex (s * (lam (part off hN i.rev)).arg, w (part off hN i.rev)) with hb
  have hwm : ∀ i j : Fin (N / 2), (lam (part off hN i)).arg = (lam (part off hN j)).arg → w (part off hN i) = w (part off hN j) := by
    intro i j hij
    rw [hw]
    dsimp only
    rw [hij]
    by_cases h0 : (lam (part off hN j)).arg = 0
    · rw [if_pos h0, if_pos h0]
    · rw [if_neg h0, if_neg h0]
      have hl := arg_inj (hu _) (hu _) hij
      refine hg.oneSpeedAway hu h1 hl ?_ (hne _) (hf.mul_pos (hf.part_neg hN i) (hf.part_neg hN j))
      rw [hl]
      exact fun h2 => h0 ((arg_zero_iff (hu _)).mpr h2)
  have hpart : ∀ i j : Fin (N / 2), i ≤ j → part off hN i ≤ part off hN j := by
    intro i j hij
    show off + i.val ≤ off + j.val
    have : i.val ≤ j.val := hij
    omega
  have hma : Monotone a := by
    intro i j hij
    rw [ha, Prod.Lex.toLex_le_toLex]
    rcases hf.mono _ _ (hpart i j hij) (hf.part_neg hN i) (hf.part_neg hN j) with h3 | ⟨h3, h4⟩
    · exact .inl h3
    · exact .inr ⟨by dsimp only; rw [h3], (hwm i j h3).le⟩
  have hmb : Monotone b := by
    intro i j hij
    rw [hb, Prod.Lex.toLex_le_toLex]
    rcases hf.mono _ _ (hpart j.rev i.rev (Fin.rev_le_rev.mpr hij)) (hf.part_neg hN _) (hf.part_neg hN _) with h3 | ⟨h3, h4⟩
    · left
      dsimp only
      linarith
    · exact .inr ⟨by dsimp only; rw [h3], (hwm _ _ h3.symm).le⟩
  have hab : a = b := by
    refine eq_of_sorted hma hmb fun x => ?_
    obtain ⟨k, v, rfl⟩ : ∃ k v, x = toLex (k, v) := ⟨(ofLex x).1, (ofLex x).2, rfl⟩
    have hrev : (Finset.univ.filter fun i => b i = toLex (k, v)).card = (Finset.univ.filter fun i => s * (lam (part off hN i)).arg = k ∧ w (part off hN i) = v).card := by
      refine Finset.card_bij (fun i _ => i.rev) ?_ ?_ ?_
      · intro i hi
        rw [Finset.mem_filter] at hi ⊢
        refine ⟨Finset.mem_univ _, ?_⟩
        have := hi.2
        rw [hb, toLex_inj, Prod.mk.injEq] at this
        exact this
      · intro i _ j _ hij
        exact Fin.rev_injective hij
      · intro j hj
        rw [Finset.mem_filter] at hj
        refine ⟨j.rev, ?_, Fin.rev_rev j⟩
        rw [Finset.mem_filter]
        refine ⟨Finset.mem_univ _, ?_⟩
        rw [hb, toLex_inj, Prod.mk.injEq, Fin.rev_rev]
        exact hj.2
    have hfwd : (Finset.univ.filter fun i => a i = toLex (k, v)).card = (Finset.univ.filter fun i => s * -(lam (part off hN i)).arg = k ∧ w (part off hN i) = v).card := by
      congr 1
      ext i
      simp only [ha, Finset.mem_filter, Finset.mem_univ, true_and, toLex_inj, Prod.mk.injEq]
    rw [hrev, hfwd]
    by_cases hk0 : k = 0
    · congr 1
      ext i
      simp only [Finset.mem_filter, Finset.mem_univ, true_and, hk0, mul_neg, neg_eq_zero]
    · have e1 : ∀ j, (s * -(lam j).arg = k ∧ w j = v) ↔ (-(lam j).arg = s * k ∧ vel j = v) := by
        intro j
        constructor
        · rintro ⟨g1, g2⟩
          have h0 : (lam j).arg ≠ 0 := by
            intro h0
            rw [h0] at g1
            apply hk0
            rw [← g1]
            simp
          rw [hw] at g2
          dsimp only at g2
          rw [if_neg h0] at g2
          exact ⟨by rw [← g1, ← mul_assoc, hss, one_mul], g2⟩
        · rintro ⟨g1, g2⟩
          have h0 : (lam j).arg ≠ 0 := by
            intro h0
            rw [h0, neg_zero] at g1
            exact hk0 ((mul_eq_zero.mp g1.symm).resolve_left hs0)
          rw [hw]
          dsimp only
          rw [if_neg h0]
          exact ⟨by rw [g1, ← mul_assoc, hss, one_mul], g2⟩
      have e2 : ∀ j, (s * (lam j).arg = k ∧ w j = v) ↔ (-(lam j).arg = -(s * k) ∧ vel j = v) := by
        intro j
        constructor
        · rintro ⟨g1, g2⟩
          have h0 : (lam j).arg ≠ 0 := by
            intro h0
            rw [h0, mul_zero] at g1
            exact hk0 g1.symm
          rw [hw] at g2
          dsimp only at g2
          rw [if_neg h0] at g2
          exact ⟨by rw [← g1, ← mul_assoc, hss, one_mul], g2⟩
        · rintro ⟨g1, g2⟩
          rw [neg_inj] at g1
          have h0 : (lam j).arg ≠ 0 := by
            intro h0
            rw [h0] at g1
            exact hk0 ((mul_eq_zero.mp g1.symm).resolve_left hs0)
          rw [hw]
          dsimp only
          rw [if_neg h0]
          exact ⟨by rw [g1, ← mul_assoc, hss, one_mul], g2⟩
      simp only [e1, e2]
      have hext : ∀ K : ℝ, s * v < 0 → (Finset.univ.filter fun i => -(lam (part off hN i)).arg = K ∧ vel (part off hN i) = v).card =
          (Finset.univ.filter fun j => -(lam j).arg = K ∧ vel j = v).card := by
        intro K hv
        refine Finset.card_bij (fun i _ => part off hN i) ?_ ?_ ?_
        · intro i hi
          rw [Finset.mem_filter] at hi ⊢
          exact ⟨Finset.mem_univ _, hi.2⟩
        · intro i _ j _ hij
          exact part_inj hN hij
        · intro j hj
          rw [Finset.mem_filter] at hj
          obtain ⟨i, rfl⟩ := hf.part_surj hN (j := j) (by rw [hj.2.2]; exact hv)
          exact ⟨i, Finset.mem_filter.mpr ⟨Finset.mem_univ _, hj.2⟩, rfl⟩
      by_cases hv : s * v < 0
      · rw [hext _ hv, hext _ hv]
        have harg : ∀ j, -(lam j).arg ≠ Real.pi ∧ -(lam j).arg ≠ -Real.pi := by
          intro j
          constructor
          · intro h0
            have := Complex.neg_pi_lt_arg (lam j)
            linarith
          · intro h0
            refine hne j (arg_inj (hu j) (by simp) ?_)
            rw [Complex.arg_neg_one]
            exact neg_injective h0
        by_cases hk : s * k = Real.pi ∨ s * k = -Real.pi
        · rw [Finset.card_eq_zero.mpr, Finset.card_eq_zero.mpr]
          · refine Finset.filter_eq_empty_iff.mpr fun j _ h0 => ?_
            rcases hk with hk | hk
            · exact (harg j).2 (by rw [h0.1, hk])
            · exact (harg j).1 (by rw [h0.1, hk, neg_neg])
          · refine Finset.filter_eq_empty_iff.mpr fun j _ h0 => ?_
            rcases hk with hk | hk
            · exact (harg j).1 (by rw [h0.1, hk])
            · exact (harg j).2 (by rw [h0.1, hk])
        · push Not at hk
          have := hg.card_mom hu hr (s * k) hk.1 hk.2 v
          have e3 : sgn true true * v = v := by rw [sgn]; simp
          rw [e3] at this
          exact this
      · rw [Finset.card_eq_zero.mpr, Finset.card_eq_zero.mpr]
        · refine Finset.filter_eq_empty_iff.mpr fun j _ h0 => hv ?_
          rw [← h0.2]
          exact hf.part_neg hN j
        · refine Finset.filter_eq_empty_iff.mpr fun j _ h0 => hv ?_
          rw [← h0.2]
          exact hf.part_neg hN j
  have := congrFun hab i
  simp only [ha, hb, toLex_inj, Prod.mk.injEq] at this
  have g1 : (lam (part off hN i)).arg = -(lam (part off hN i.rev)).arg := by
    have h3 := mul_left_cancel₀ hs0 this.1
    rw [← h3, neg_neg]
  refine ⟨g1, fun h0 => ?_⟩
  have h2 : (lam (part off hN i)).arg ≠ 0 := fun h3 => h0 ((arg_zero_iff (hu _)).mp h3)
  have h3 : (lam (part off hN i.rev)).arg ≠ 0 := by
    intro h4
    rw [h4, neg_zero] at g1
    exact h2 g1
  have := this.2
  rw [hw] at this
  dsimp only at this
  rw [if_neg h2, if_neg h3] at this
  exact this

theorem trim_arg {z : ℂ} (hz : ‖z‖ = 1) {ε : ℝ} (h0 : 0 < ε) (h1 : ε ≤ 1) (hr : |z.re| ≤ 1 - ε) (ha : z.arg < 0) : ε < -z.arg ∧ -z.arg < Real.pi - ε := by
  have hc : Real.cos (-z.arg) = z.re := by
    rw [Real.cos_neg, Complex.cos_arg (by intro h2; rw [h2] at hz; simp at hz), hz, div_one]
  rw [abs_le] at hr
  have hp := Complex.neg_pi_lt_arg z
  have key : ∀ x : ℝ, 0 < x → Real.cos x ≤ 1 - ε → ε < x := by
    intro x hx hcx
    have h2 := Real.one_sub_sq_div_two_le_cos (x := x)
    have h3 : 2 * ε ≤ x ^ 2 := by linarith
    by_contra h4
    push Not at h4
    have h5 : x ^ 2 ≤ ε ^ 2 := by
      apply pow_le_pow_left₀ hx.le h4
    nlinarith
  refine ⟨key _ (by linarith) (by rw [hc]; exact hr.2), ?_⟩
  have := key (Real.pi - -z.arg) (by linarith) (by rw [Real.cos_pi_sub, hc]; linarith)
  linarith

/-- The momenta of partners in a half -/
theorem IsHalf.ph_mom {off : ℕ} {s : ℝ} (hf : IsHalf lam vel off s) (hN : off + N / 2 ≤ N) (hg : Good h hop u L.v lam psi full vel) (hu : ∀ i, ‖lam i‖ = 1)
    (hr : Related ph true true h hop h hop) (h1 : OneSpeedAway h hop) (h2 : PiAlone h hop) (i : Fin (N / 2)) :
    (0 < -(lam (part off hN i)).arg → lam (part off hN i.rev) = (starRingEnd ℂ) (lam (part off hN i)) ∧ vel (part off hN i.rev) = vel (part off hN i) ∧
      (lam (part off hN i.rev)).arg = -(lam (part off hN i)).arg) ∧
    (-Real.pi < -(lam (part off hN i)).arg → -(lam (part off hN i)).arg < 0 → 0 < -(lam (part off hN i.rev)).arg) := by
  rcases h2 with h2 | h2
  · have hne : ∀ j, lam j ≠ -1 := by
      intro j h0
      have hl := (hg.link j).2
      rw [h0] at hl
      exact hg.ne_zero j (h2 _ hl)
    obtain ⟨g1, g2⟩ := hf.ph_match hN hg hu hr h1 hne i
    constructor
    · intro h3
      have g3 : (lam (part off hN i.rev)).arg = -(lam (part off hN i)).arg := by rw [g1, neg_neg]
      refine ⟨arg_inj (hu _) (by rw [RCLike.norm_conj, hu]) ?_, (g2 ?_).symm, g3⟩
      · rw [arg_conj' (hu _) (hne _), g3]
      · intro h4
        rw [h4, Complex.arg_one] at h3
        simp at h3
    · intro _ h3
      rw [g1, neg_neg] at h3
      linarith
  · have hall : ∀ j, lam j = 1 ∨ lam j = -1 := fun j => h2 _ _ (hu j) (hg.link j).2 (hg.ne_zero j)
    constructor
    · intro h3
      rcases hall (part off hN i) with h4 | h4
      · rw [h4, Complex.arg_one] at h3
        simp at h3
      · rw [h4, Complex.arg_neg_one] at h3
        linarith [Real.pi_pos]
    · intro h3 h5
      rcases hall (part off hN i) with h4 | h4
      · rw [h4, Complex.arg_one] at h5
        simp at h5
      · rw [h4, Complex.arg_neg_one] at h3
        exact absurd h3 (lt_irrefl _)

/-- `phHalf` -/
theorem IsHalf.ph_good {off : ℕ} {s : ℝ} (hf : IsHalf lam vel off s) (hN : off + N / 2 ≤ N) (hh : h.IsHermitian) (hF : Faithful h hop L u) {e : ModeNum n} (he : e.Ok)
    (he1 : e.eps ≤ 1) (hg : Good h hop u L.v lam psi full vel) (hu : ∀ i, ‖lam i‖ = 1) (hts : TrimSep e lam)
    (hr : Related ph true true h hop h hop) (h1 : OneSpeedAway h hop) (h2 : PiAlone h hop) :
    Good h hop u L.v lam (phHalf e ph off hN (fun i => -(lam i).arg) (full, psi)).2 (phHalf e ph off hN (fun i => -(lam i).arg) (full, psi)).1 vel ∧
      (∀ i, 0 < -(lam (part off hN i)).arg → (phHalf e ph off hN (fun i => -(lam i).arg) (full, psi)).1.col (part off hN i.rev) = ph *ᵥ star (full.col (part off hN i))) ∧
      (∀ j, ¬(s * vel j < 0 ∧ -(lam j).arg < 0 ∧ lam j ≠ -1) → (phHalf e ph off hN (fun i => -(lam i).arg) (full, psi)).1.col j = full.col j) := by
  have hm := fun i => hf.ph_mom hN hg hu hr h1 h2 i
  have hmemP : ∀ j, j ∈ positiveK e off (fun i => -(lam i).arg) ↔ s * vel j < 0 ∧ 0 < -(lam j).arg := by
    intro j
    rw [positiveK, List.mem_filter, decide_eq_true_eq, ← hf.mem]
    constructor
    · rintro ⟨_, q1, q2, _, q4⟩
      exact ⟨⟨q1, q2⟩, he.eps.trans q4⟩
    · rintro ⟨⟨q1, q2⟩, q3⟩
      have hre : |(lam j).re| ≤ 1 - e.eps := by
        rcases hts j with h3 | h3 | h3
        · rw [h3, Complex.arg_one] at q3
          simp at q3
        · rw [h3, Complex.arg_neg_one] at q3
          linarith [Real.pi_pos]
        · exact h3
      obtain ⟨q4, q5⟩ := trim_arg (hu j) he.eps he1 hre (by linarith)
      exact ⟨List.mem_finRange j, q1, q2, q5, q4⟩
  set pl := positiveK e off (fun i => -(lam i).arg) with hpl
  have hnd : pl.Nodup := by
    rw [hpl, positiveK]
    exact (List.nodup_finRange N).filter _
  have hposinj : Function.Injective pl.get := List.nodup_iff_injective_get.mp hnd
  have hpx : ∀ a : Fin pl.length, ∃ i, part off hN i = pl.get a ∧ 0 < -(lam (part off hN i)).arg := by
    intro a
    obtain ⟨q1, q2⟩ := (hmemP _).mp (List.get_mem pl a)
    obtain ⟨i, hi⟩ := hf.part_surj hN q1
    exact ⟨i, hi, by rw [hi]; exact q2⟩
  choose f hf1 hf2 using hpx
  have hneg : ∀ a, mirror off hN (pl.get a) = part off hN (f a).rev := fun a => by rw [← hf1, mirror_part]
  set tgt : Fin pl.length → Fin N := mirror off hN ∘ pl.get with htgt
  have htgt' : ∀ a, tgt a = part off hN (f a).rev := hneg
  have hinj : Function.Injective tgt := by
    intro a b hab
    rw [htgt', htgt'] at hab
    have := Fin.rev_injective (part_inj hN hab)
    apply hposinj
    rw [← hf1, ← hf1, this]
  set out := pdot ph (full.submatrix id pl.get) with hout
  have hcol : ∀ a, out.col a = ph *ᵥ (cj true ∘ full.col (pl.get a)) := fun a => rfl
  have hv : ∀ a, VelState h hop (lam (tgt a)) (vel (tgt a)) (out.col a) := by
    intro a
    obtain ⟨m1, m2, _⟩ := (hm (f a)).1 (hf2 a)
    have := (hg.velState hu (pl.get a)).map hr (hu _)
    have e1 : sgn true true * vel (pl.get a) = vel (pl.get a) := by rw [sgn]; simp
    rw [e1] at this
    rw [hcol, htgt', m1, m2, hf1]
    exact this
  have hres : ∀ a j, lam j = lam (tgt a) → vel j = vel (tgt a) → ∃ b, tgt b = j := by
    intro a j e1 e2
    obtain ⟨m1, m2, m3⟩ := (hm (f a)).1 (hf2 a)
    rw [htgt'] at e1 e2
    obtain ⟨i, rfl⟩ := hf.part_surj hN (j := j) (by rw [e2]; exact hf.part_neg hN _)
    have h4 : -(lam (part off hN i)).arg < 0 := by
      rw [e1, m3]
      linarith [hf2 a]
    have h5 : -Real.pi < -(lam (part off hN i)).arg := by
      rw [e1, m3, neg_neg]
      exact Complex.neg_pi_lt_arg _
    have h6 := (hm i).2 h5 h4
    have h7 := (hmemP (part off hN i.rev)).mpr ⟨hf.part_neg hN _, h6⟩
    obtain ⟨b, hb⟩ := List.get_of_mem h7
    refine ⟨b, ?_⟩
    show mirror off hN (pl.get b) = _
    rw [hb, mirror_part, Fin.rev_rev]
  obtain ⟨Q, q1, q2, q3⟩ := hg.replace hu hinj hv
    (by
      intro a b hab
      rw [hcol, hcol, dot_cj hr.left, hg.orth]
      · by_cases h0 : a = b
        · subst h0; simp
        · rw [if_neg h0, if_neg (fun h3 => h0 (hposinj h3)), map_zero]
      · have m1 := ((hm (f a)).1 (hf2 a)).1
        have m2 := ((hm (f b)).1 (hf2 b)).1
        rw [htgt', htgt', m1, m2] at hab
        have := (starRingEnd ℂ).injective hab
        rw [hf1, hf1] at this
        exact this)
    hres
  have hrot : e.lstsq (full.submatrix id tgt) out = Q := by
    rw [q2]
    refine he.lstsq _ _ fun c hc => hg.indep hh hF hu hinj (hf.dir fun a => ?_) c hc
    rw [htgt']
    exact hf.part_neg hN _
  have e2 : phHalf e ph off hN (fun i => -(lam i).arg) (full, psi) = (updCols tgt full out, updCols tgt psi (psi.submatrix id tgt * Q)) := by
    rw [← hrot]
    rfl
  rw [e2]
  refine ⟨q3, ?_, ?_⟩
  · intro i hi
    obtain ⟨b, hb⟩ := List.get_of_mem ((hmemP (part off hN i)).mpr ⟨hf.part_neg hN _, hi⟩)
    have h3 : tgt b = part off hN i.rev := by
      show mirror off hN (pl.get b) = _
      rw [hb, mirror_part]
    rw [← h3, updCols_col_sel hinj, hcol, hb]
    rfl
  · intro j hj
    refine updCols_col_not _ _ fun a h3 => hj ?_
    obtain ⟨m1, m2, m3⟩ := (hm (f a)).1 (hf2 a)
    rw [← h3, htgt']
    refine ⟨hf.part_neg hN _, ?_, ?_⟩
    · rw [m3]
      linarith [hf2 a]
    · intro h4
      rw [m1, conj_neg_one_iff] at h4
      have := hf2 a
      rw [h4, Complex.arg_neg_one] at this
      linarith [Real.pi_pos]

end half

end Kwant.Leads
