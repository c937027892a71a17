import Verif.Leads.SymGood

/-!
C156: the propagating modes of a lead with time-reversal symmetry (`make_proper_modes`, kwant/physics/leads.py l.864-871).
-/

set_option linter.unusedSectionVars false

namespace Kwant.Leads
open Matrix Complex

variable {n : ℕ}

/-! ### Specification -/

/-- At each momentum, all modes that move in the same direction are equally fast. -/
def OneSpeed (h hop : Matrix (Fin n) (Fin n) ℂ) : Prop :=
  ∀ μ v w, ‖μ‖ = 1 → (∃ ψ, ψ ≠ 0 ∧ VelState h hop μ v ψ) → (∃ ψ, ψ ≠ 0 ∧ VelState h hop μ w ψ) → 0 < v * w → v = w

/-- There is no mode at momentum `π`, or all modes are there. -/
def NotMixedPi (h hop : Matrix (Fin n) (Fin n) ℂ) : Prop :=
  (∀ ψ, IsBloch h hop (-1) ψ → ψ = 0) ∨ ∀ μ ψ, ‖μ‖ = 1 → IsBloch h hop μ ψ → ψ ≠ 0 → μ = -1

/-- What is promised if `T ψ = tr ψ*` is a symmetry: the outgoing modes are the time-reversed incoming modes. -/
structure TimeReversed (tr : Matrix (Fin n) (Fin n) ℂ) {r N : ℕ} (o : Proper n r N) : Prop where
  wave : ∀ i : Fin (N / 2), o.waveFunctions.col (secondHalf N i) = tr *ᵥ star (o.waveFunctions.col (firstHalf N i))
  velocity : ∀ i : Fin (N / 2), o.velocities (secondHalf N i) = -o.velocities (firstHalf N i)
  /-- Momenta are in `[-π, π)`, so that the opposite of `-π` is `-π`. -/
  momentum : ∀ i : Fin (N / 2), o.momenta (secondHalf N i) = -o.momenta (firstHalf N i) ∨
    (o.momenta (secondHalf N i) = -Real.pi ∧ o.momenta (firstHalf N i) = -Real.pi)

/-! ### Proofs -/

theorem Good.ne_zero {r : ℕ} {h hop : Matrix (Fin n) (Fin n) ℂ} {u v : Matrix (Fin n) (Fin r) ℂ} {N : ℕ} {lam : Fin N → ℂ} {psi : Matrix (Fin r ⊕ Fin r) (Fin N) ℂ}
    {full : Matrix (Fin n) (Fin N) ℂ} {vel : Fin N → ℝ} (hg : Good h hop u v lam psi full vel) (i : Fin N) : full.col i ≠ 0 := by
  intro h0
  have := hg.orth i i rfl
  rw [h0, if_pos rfl] at this
  simp at this

theorem Good.oneSpeed {r : ℕ} {h hop : Matrix (Fin n) (Fin n) ℂ} {u v : Matrix (Fin n) (Fin r) ℂ} {N : ℕ} {lam : Fin N → ℂ} {psi : Matrix (Fin r ⊕ Fin r) (Fin N) ℂ}
    {full : Matrix (Fin n) (Fin N) ℂ} {vel : Fin N → ℝ} (hg : Good h hop u v lam psi full vel) (hu : ∀ i, ‖lam i‖ = 1) (h1 : OneSpeed h hop) {i j : Fin N}
    (hij : lam i = lam j) (hv : 0 < vel i * vel j) : vel i = vel j :=
  h1 (lam i) _ _ (hu i) ⟨_, hg.ne_zero i, hg.velState hu i⟩ ⟨_, hg.ne_zero j, by rw [hij]; exact hg.velState hu j⟩ hv

theorem arg_inj {z w : ℂ} (hz : ‖z‖ = 1) (hw : ‖w‖ = 1) (h : z.arg = w.arg) : z = w := by
  rw [← cexp_arg hz, ← cexp_arg hw, h]

theorem arg_conj' {z : ℂ} (hz : ‖z‖ = 1) (h1 : z ≠ -1) : ((starRingEnd ℂ) z).arg = -z.arg := by
  rw [Complex.arg_conj, if_neg]
  intro h0
  apply h1
  refine arg_inj hz (by simp) ?_
  rw [h0, Complex.arg_neg_one]

theorem conj_neg_one_iff {z : ℂ} : (starRingEnd ℂ) z = -1 ↔ z = -1 := by
  constructor
  · intro h
    have := congrArg (starRingEnd ℂ) h
    simpa using this
  · rintro rfl
    simp

theorem firstHalf_inj (N : ℕ) : Function.Injective (firstHalf N) := Fin.castLE_injective _

theorem secondHalf_inj (N : ℕ) : Function.Injective (secondHalf N) := by
  intro i j h
  have := congrArg Fin.val h
  simp only [secondHalf] at this
  exact Fin.ext (by omega)

theorem secondHalf_surj {N : ℕ} (hN : N % 2 = 0) {j : Fin N} (hj : ¬2 * j.val < N) : ∃ i, secondHalf N i = j :=
  ⟨⟨j.val - N / 2, by omega⟩, Fin.ext (by simp only [secondHalf]; omega)⟩

theorem firstHalf_surj {N : ℕ} (hN : N % 2 = 0) {j : Fin N} (hj : 2 * j.val < N) : ∃ i, firstHalf N i = j :=
  ⟨⟨j.val, by omega⟩, Fin.ext rfl⟩

/-- The arrays after sorting (l.813-822) -/
structure Sorted (h hop : Matrix (Fin n) (Fin n) ℂ) (L : Linsys n) (u : Matrix (Fin n) (Fin L.r) ℂ) {N : ℕ} (lam : Fin N → ℂ) (psi : Matrix (Fin L.r ⊕ Fin L.r) (Fin N) ℂ)
    (full : Matrix (Fin n) (Fin N) ℂ) (vel : Fin N → ℝ) (trim : Fin N → ℕ) : Prop where
  good : Good h hop u L.v lam psi full vel
  unit : ∀ i, ‖lam i‖ = 1
  even : N % 2 = 0
  nonzero : ∀ i, vel i ≠ 0
  half : ∀ i, vel i < 0 ↔ 2 * i.val < N
  mono : Monotone (sortKey vel (fun i => -(lam i).arg) trim)

theorem Good.sorted {h hop : Matrix (Fin n) (Fin n) ℂ} {L : Linsys n} {u : Matrix (Fin n) (Fin L.r) ℂ} {N : ℕ} {lam : Fin N → ℂ} {psi : Matrix (Fin L.r ⊕ Fin L.r) (Fin N) ℂ}
    {full : Matrix (Fin n) (Fin N) ℂ} {vel : Fin N → ℝ} (e : ModeNum n) (he : e.Ok) (hu : ∀ i, ‖lam i‖ = 1) (hg : Good h hop u L.v lam psi full vel)
    (hv : velCheck e vel = true) (trim : Fin N → ℕ) {σ : Equiv.Perm (Fin N)} (hσ : σ = Tuple.sort (sortKey vel (fun i => -(lam i).arg) trim)) :
    Sorted h hop L u (lam ∘ σ) (psi.submatrix id σ) (full.submatrix id σ) (vel ∘ σ) (trim ∘ σ) := by
  rw [velCheck, decide_eq_true_eq] at hv
  obtain ⟨hv1, hv2⟩ := hv
  have hmono := Tuple.monotone_sort (sortKey vel (fun i => -(lam i).arg) trim)
  rw [← hσ] at hmono
  have hlow : ∀ i j, j ≤ i → (vel ∘ σ) i < 0 → (vel ∘ σ) j < 0 := by
    intro i j hij hi
    exact ((sortKey_le (hmono hij)).1 hi).resolve_right id
  refine ⟨hg.perm σ, fun i => hu (σ i), by omega, ?_, ?_, hmono⟩
  · intro i h0
    refine hv1 (σ i) ?_
    have : vel (σ i) = 0 := h0
    rw [this, abs_zero]
    exact he.velEps
  · intro i
    have key := lower_card (Finset.univ.filter fun i => (vel ∘ σ) i < 0) (by
      intro i j hij hi
      rw [Finset.mem_filter] at hi ⊢
      exact ⟨Finset.mem_univ _, hlow i j hij hi.2⟩) i
    rw [Finset.mem_filter] at key
    have hcard : (Finset.univ.filter fun i => (vel ∘ σ) i < 0).card = (Finset.univ.filter fun i => vel i < 0).card := by
      refine Finset.card_bij (fun i _ => σ i) ?_ ?_ ?_
      · intro a ha
        rw [Finset.mem_filter] at ha ⊢
        exact ⟨Finset.mem_univ _, ha.2⟩
      · intro a _ b _ hab
        exact σ.injective hab
      · intro b hb
        refine ⟨σ.symm b, ?_, by simp⟩
        rw [Finset.mem_filter] at hb ⊢
        exact ⟨Finset.mem_univ _, by simpa using hb.2⟩
    rw [hcard] at key
    constructor
    · intro hi
      have := key.mp ⟨Finset.mem_univ _, hi⟩
      omega
    · intro hi
      exact (key.mpr (by omega)).2

section match_
variable {h hop : Matrix (Fin n) (Fin n) ℂ} {L : Linsys n} {u : Matrix (Fin n) (Fin L.r) ℂ} {N : ℕ} {lam : Fin N → ℂ} {psi : Matrix (Fin L.r ⊕ Fin L.r) (Fin N) ℂ}
  {full : Matrix (Fin n) (Fin N) ℂ} {vel : Fin N → ℝ} {trim : Fin N → ℕ}

theorem Sorted.first (hs : Sorted h hop L u lam psi full vel trim) (i : Fin (N / 2)) : vel (firstHalf N i) < 0 := by
  rw [hs.half]
  simp only [firstHalf, Fin.val_castLE]
  have := i.2
  omega

theorem Sorted.second (hs : Sorted h hop L u lam psi full vel trim) (i : Fin (N / 2)) : 0 < vel (secondHalf N i) := by
  have h1 : ¬vel (secondHalf N i) < 0 := by
    rw [hs.half]
    simp only [secondHalf]
    have := hs.even
    omega
  exact lt_of_le_of_ne (not_lt.mp h1) (hs.nonzero _).symm

open Classical in
/-- Opposite momenta and opposite velocities (`s = -1`) or equal velocities (`s = 1`) are equally frequent, unless the momentum is `π`. -/
theorem Good.card_mom (hg : Good h hop u L.v lam psi full vel) (hu : ∀ i, ‖lam i‖ = 1) {U : Matrix (Fin n) (Fin n) ℂ} {fl : Bool} (hr : Related U true fl h hop h hop)
    (k : ℝ) (hk : k ≠ Real.pi) (hk' : k ≠ -Real.pi) (w : ℝ) : (Finset.univ.filter fun i => -(lam i).arg = k ∧ vel i = w).card =
      (Finset.univ.filter fun i => -(lam i).arg = -k ∧ vel i = sgn true fl * w).card := by
  have key : ∀ (k w : ℝ), k ≠ Real.pi → k ≠ -Real.pi → (∃ j, -(lam j).arg = k) → (Finset.univ.filter fun i => -(lam i).arg = k ∧ vel i = w).card =
      (Finset.univ.filter fun i => -(lam i).arg = -k ∧ vel i = sgn true fl * w).card := by
    rintro k w hk hk' ⟨j, hj⟩
    have hne : lam j ≠ -1 := by
      intro h0
      rw [h0, Complex.arg_neg_one] at hj
      exact hk' hj.symm
    have h1 := hg.card_eq hu hr (lam j) w
    have h2 : ∀ i, -(lam i).arg = k ↔ lam i = lam j := by
      intro i
      constructor
      · intro h0
        exact arg_inj (hu i) (hu j) (neg_injective (h0.trans hj.symm))
      · intro h0
        rw [h0, hj]
    have h3 : ∀ i, -(lam i).arg = -k ↔ lam i = cj true (lam j) := by
      intro i
      have hc : cj true (lam j) = (starRingEnd ℂ) (lam j) := rfl
      rw [hc]
      constructor
      · intro h0
        refine arg_inj (hu i) (by rw [RCLike.norm_conj, hu j]) ?_
        rw [arg_conj' (hu j) hne, hj]
        exact neg_injective h0
      · intro h0
        rw [h0, arg_conj' (hu j) hne, hj]
    simp only [h2, h3]
    exact h1
  by_cases he : ∃ j, -(lam j).arg = k
  · exact key k w hk hk' he
  · by_cases he' : ∃ j, -(lam j).arg = -k
    · have := key (-k) (sgn true fl * w) (fun h0 => hk' (by rw [← h0, neg_neg])) (fun h0 => hk (neg_injective h0)) he'
      rw [neg_neg, sgn_sgn] at this
      exact this.symm
    · push Not at he he'
      rw [Finset.card_eq_zero.mpr, Finset.card_eq_zero.mpr]
      · exact Finset.filter_eq_empty_iff.mpr fun i _ h0 => he' i h0.1
      · exact Finset.filter_eq_empty_iff.mpr fun i _ h0 => he i h0.1

/-- The outgoing modes are at the opposite momenta of the incoming modes, in the same order. -/
theorem Sorted.tr_match (hs : Sorted h hop L u lam psi full vel trim) {tr : Matrix (Fin n) (Fin n) ℂ} (hr : Related tr true false h hop h hop)
    (h1 : OneSpeed h hop) (h2 : NotMixedPi h hop) (i : Fin (N / 2)) :
    lam (secondHalf N i) = (starRingEnd ℂ) (lam (firstHalf N i)) ∧ vel (secondHalf N i) = -vel (firstHalf N i) := by
  classical
  have hg := hs.good
  have hu := hs.unit
  rcases h2 with h2 | h2
  · have hne : ∀ j, lam j ≠ -1 := by
      intro j h0
      have hl := (hg.link j).2
      rw [h0] at hl
      exact hg.ne_zero j (h2 _ hl)
    have harg : ∀ j, (lam j).arg ≠ Real.pi := by
      intro j h0
      refine hne j (arg_inj (hu j) (by simp) ?_)
      rw [h0, Complex.arg_neg_one]
    set a : Fin (N / 2) → ℝ ×ₗ ℝ := fun i => toLex (-(lam (firstHalf N i)).arg, vel (firstHalf N i)) with ha
    set b : Fin (N / 2) → ℝ ×ₗ ℝ := fun i => toLex ((lam (secondHalf N i)).arg, -vel (secondHalf N i)) with hb
    have hma : Monotone a := by
      intro i j hij
      have := (sortKey_le (hs.mono (show firstHalf N i ≤ firstHalf N j from hij))).2.1 (hs.first i) (hs.first j)
      rw [ha, Prod.Lex.toLex_le_toLex]
      rcases this with h3 | ⟨h3, h4⟩
      · exact .inl h3
      · refine .inr ⟨h3, ?_⟩
        rcases h4 with h4 | h4
        · exact h4.le
        · exact h4.1.le
    have hmb : Monotone b := by
      intro i j hij
      have hle : secondHalf N i ≤ secondHalf N j := by
        show N / 2 + i.val ≤ N / 2 + j.val
        have : i.val ≤ j.val := hij
        omega
      have := (sortKey_le (hs.mono hle)).2.2 (hs.second i) (hs.second j)
      rw [hb, Prod.Lex.toLex_le_toLex]
      rcases this with h3 | ⟨h3, h4⟩
      · left
        simpa using h3
      · have h5 : (lam (secondHalf N i)).arg = (lam (secondHalf N j)).arg := neg_injective h3
        refine .inr ⟨h5, ?_⟩
        dsimp only
        rw [hg.oneSpeed hu h1 (arg_inj (hu _) (hu _) h5) (mul_pos (hs.second i) (hs.second j))]
    have hab : a = b := by
      refine eq_of_sorted hma hmb fun x => ?_
      obtain ⟨k, w, rfl⟩ : ∃ k w, x = toLex (k, w) := ⟨(ofLex x).1, (ofLex x).2, rfl⟩
      have e1 : (Finset.univ.filter fun i => a i = toLex (k, w)) = Finset.univ.filter fun i => -(lam (firstHalf N i)).arg = k ∧ vel (firstHalf N i) = w := by
        ext i
        simp only [ha, Finset.mem_filter, Finset.mem_univ, true_and, toLex_inj, Prod.mk.injEq]
      have e2 : (Finset.univ.filter fun i => b i = toLex (k, w)) = Finset.univ.filter fun i => -(lam (secondHalf N i)).arg = -k ∧ vel (secondHalf N i) = sgn true false * w := by
        ext i
        simp only [hb, Finset.mem_filter, Finset.mem_univ, true_and, toLex_inj, Prod.mk.injEq, sgn, neg_inj]
        constructor
        · rintro ⟨g1, g2⟩
          refine ⟨g1, ?_⟩
          rw [← g2]
          simp
        · rintro ⟨g1, g2⟩
          refine ⟨g1, ?_⟩
          rw [g2]
          simp
      rw [e1, e2]
      by_cases hw : w < 0
      · by_cases hk : k = Real.pi ∨ k = -Real.pi
        · rw [Finset.card_eq_zero.mpr, Finset.card_eq_zero.mpr]
          · refine Finset.filter_eq_empty_iff.mpr fun i _ h0 => ?_
            have g1 := neg_injective h0.1
            rcases hk with hk | hk
            · exact harg _ (g1.trans hk)
            · have := Complex.neg_pi_lt_arg (lam (secondHalf N i))
              rw [g1, hk] at this
              exact lt_irrefl _ this
          · refine Finset.filter_eq_empty_iff.mpr fun i _ h0 => ?_
            have g1 := h0.1
            rcases hk with hk | hk
            · have := Complex.neg_pi_lt_arg (lam (firstHalf N i))
              rw [hk] at g1
              linarith
            · rw [hk] at g1
              exact harg _ (neg_injective g1)
        · push Not at hk
          have c0 := hg.card_mom hu hr k hk.1 hk.2 w
          have c1 : (Finset.univ.filter fun i => -(lam (firstHalf N i)).arg = k ∧ vel (firstHalf N i) = w).card = (Finset.univ.filter fun j => -(lam j).arg = k ∧ vel j = w).card := by
            refine Finset.card_bij (fun i _ => firstHalf N i) ?_ ?_ ?_
            · intro i hi
              rw [Finset.mem_filter] at hi ⊢
              exact ⟨Finset.mem_univ _, hi.2⟩
            · intro i _ j _ hij
              exact firstHalf_inj N hij
            · intro j hj
              rw [Finset.mem_filter] at hj
              obtain ⟨i, rfl⟩ := firstHalf_surj hs.even ((hs.half j).mp (by rw [hj.2.2]; exact hw))
              exact ⟨i, Finset.mem_filter.mpr ⟨Finset.mem_univ _, hj.2⟩, rfl⟩
          have c2 : (Finset.univ.filter fun i => -(lam (secondHalf N i)).arg = -k ∧ vel (secondHalf N i) = sgn true false * w).card =
              (Finset.univ.filter fun j => -(lam j).arg = -k ∧ vel j = sgn true false * w).card := by
            refine Finset.card_bij (fun i _ => secondHalf N i) ?_ ?_ ?_
            · intro i hi
              rw [Finset.mem_filter] at hi ⊢
              exact ⟨Finset.mem_univ _, hi.2⟩
            · intro i _ j _ hij
              exact secondHalf_inj N hij
            · intro j hj
              rw [Finset.mem_filter] at hj
              obtain ⟨i, rfl⟩ := secondHalf_surj hs.even (j := j) (by
                rw [← hs.half, hj.2.2, sgn]
                simp
                exact hw.le)
              exact ⟨i, Finset.mem_filter.mpr ⟨Finset.mem_univ _, hj.2⟩, rfl⟩
          rw [c1, c2]
          exact c0
      · rw [Finset.card_eq_zero.mpr, Finset.card_eq_zero.mpr]
        · refine Finset.filter_eq_empty_iff.mpr fun i _ h0 => ?_
          have g1 := hs.second i
          rw [h0.2, sgn] at g1
          simp at g1
          exact hw g1
        · refine Finset.filter_eq_empty_iff.mpr fun i _ h0 => ?_
          have g1 := hs.first i
          rw [h0.2] at g1
          exact hw g1
    have := congrFun hab i
    simp only [ha, hb, toLex_inj, Prod.mk.injEq] at this
    constructor
    · refine arg_inj (hu _) (by rw [RCLike.norm_conj, hu]) ?_
      rw [arg_conj' (hu _) (hne _), this.1]
    · rw [this.2, neg_neg]
  · have hall : ∀ j, lam j = -1 := fun j => h2 _ _ (hu j) (hg.link j).2 (hg.ne_zero j)
    refine ⟨by rw [hall, hall]; simp, ?_⟩
    have hc := hg.card_eq hu hr (lam (firstHalf N i)) (vel (firstHalf N i))
    have hpos : 0 < (Finset.univ.filter fun j => lam j = lam (firstHalf N i) ∧ vel j = vel (firstHalf N i)).card :=
      Finset.card_pos.mpr ⟨firstHalf N i, Finset.mem_filter.mpr ⟨Finset.mem_univ _, rfl, rfl⟩⟩
    rw [hc] at hpos
    obtain ⟨j, hj⟩ := Finset.card_pos.mp hpos
    rw [Finset.mem_filter] at hj
    have hv : vel j = -vel (firstHalf N i) := by
      rw [hj.2.2, sgn]
      simp
    rw [← hv]
    refine hg.oneSpeed hu h1 (by rw [hall, hall]) (mul_pos (hs.second i) ?_)
    rw [hv]
    exact neg_pos.mpr (hs.first i)

/-- `trStep` (l.864-871) on sorted modes. -/
theorem Sorted.tr_good (hh : h.IsHermitian) (hf : Faithful h hop L u) {e : ModeNum n} (he : e.Ok) (hs : Sorted h hop L u lam psi full vel trim)
    {tr : Matrix (Fin n) (Fin n) ℂ} (hr : Related tr true false h hop h hop) (h1 : OneSpeed h hop) (h2 : NotMixedPi h hop) :
    Good h hop u L.v lam (trStep e tr (full, psi)).2 (trStep e tr (full, psi)).1 vel ∧
      (∀ i, (trStep e tr (full, psi)).1.col (secondHalf N i) = tr *ᵥ star (full.col (firstHalf N i))) ∧
      (∀ i, (trStep e tr (full, psi)).1.col (firstHalf N i) = full.col (firstHalf N i)) := by
  have hg := hs.good
  have hu := hs.unit
  have hm := hs.tr_match hr h1 h2
  set out := pdot tr (full.submatrix id (firstHalf N)) with hout
  have hcol : ∀ a, out.col a = tr *ᵥ (cj true ∘ full.col (firstHalf N a)) := fun a => rfl
  have hv : ∀ a, VelState h hop (lam (secondHalf N a)) (vel (secondHalf N a)) (out.col a) := by
    intro a
    have := (hg.velState hu (firstHalf N a)).map hr (hu _)
    rw [hcol, (hm a).1, (hm a).2]
    have e1 : sgn true false * vel (firstHalf N a) = -vel (firstHalf N a) := by rw [sgn]; simp
    rw [e1] at this
    exact this
  obtain ⟨Q, q1, q2, q3⟩ := hg.replace hu (secondHalf_inj N) hv
    (by
      intro a b hab
      rw [hcol, hcol, dot_cj hr.left, hg.orth]
      · by_cases h0 : a = b
        · subst h0; simp
        · rw [if_neg h0, if_neg (fun h3 => h0 (firstHalf_inj N h3)), map_zero]
      · rw [(hm a).1, (hm b).1] at hab
        exact (starRingEnd ℂ).injective hab)
    (by
      intro a j _ hj
      refine secondHalf_surj hs.even ?_
      rw [← hs.half, hj]
      exact not_lt.mpr (hs.second a).le)
  have hrot : e.lstsq (full.submatrix id (secondHalf N)) out = Q := by
    rw [q2]
    exact he.lstsq _ _ fun c hc => hg.indep hh hf hu (secondHalf_inj N) (.inr hs.second) c hc
  have e2 : trStep e tr (full, psi) = (updCols (secondHalf N) full out, updCols (secondHalf N) psi (psi.submatrix id (secondHalf N) * Q)) := by
    rw [← hrot]
    rfl
  rw [e2]
  refine ⟨q3, ?_, ?_⟩
  · intro i
    rw [updCols_col_sel (secondHalf_inj N)]
    rfl
  · intro i
    refine updCols_col_not _ _ fun j h0 => ?_
    have := congrArg Fin.val h0
    simp only [firstHalf, secondHalf, Fin.val_castLE] at this
    have := i.2
    omega

end match_

/-! ### Main theorems -/

/-- In the loop, time-reversal symmetry is not used, and chiral symmetry neither in its presence. -/
theorem runClusters_tr (e : ModeNum n) (tr : Matrix (Fin n) (Fin n) ℂ) (ch ch' : Option (Matrix (Fin n) (Fin n) ℂ)) {r N : ℕ} :
    ∀ (cs : List (List (Fin N))) (m : Modes n r N), runClusters e ⟨some tr, none, ch⟩ cs m = runClusters e ⟨none, none, none⟩ cs m
  | [], m => rfl
  | c :: cs, m => by
    have h1 : clusterStep e ⟨some tr, none, ch⟩ (m.take c.get) = clusterStep e ⟨none, none, none⟩ (m.take c.get) := by
      cases ch <;> rfl
    rw [runClusters, runClusters, h1]
    split
    · rfl
    · exact runClusters_tr e tr ch ch' cs _

section main
variable {h hop : Matrix (Fin n) (Fin n) ℂ} {L : Linsys n} {u : Matrix (Fin n) (Fin L.r) ℂ}

theorem div_col {R : Type} {N : ℕ} (m : Matrix R (Fin N) ℂ) (d : Fin N → ℂ) (i : Fin N) : (of fun a j => m a j / d j : Matrix R (Fin N) ℂ).col i = (d i)⁻¹ • m.col i := by
  ext a
  simp [div_eq_mul_inv, mul_comm]

/-- C156: with time-reversal symmetry the modes are proper modes, and the outgoing modes are the time-reversed incoming ones, if at every momentum there is only one speed
and modes at momentum `π` do not coexist with others. -/
theorem C156_modes_partial (hh : h.IsHermitian) (en : Numerics n) (hen : en.Ok hop) {stab : Option (Option Bool × Bool)}
    (hL : setupLinsys en h hop stab = .ok L) (hc : CutExact en hop) (hst : ∀ s0, stab = some (s0, true) → NoInfinite h hop)
    (e : ModeNum n) (he : e.Ok) {N : ℕ} {lam : Fin N → ℂ} {psi : Matrix (Fin L.r ⊕ Fin L.r) (Fin N) ℂ} (hi : PropInput L lam psi) (hs : Separated e lam)
    {tr : Matrix (Fin n) (Fin n) ℂ} (hr : Related tr true false h hop h hop) (ch : Option (Matrix (Fin n) (Fin n) ℂ)) (h1 : OneSpeed h hop) (h2 : NotMixedPi h hop)
    (junk : Fin N → ℝ) {o : Proper n L.r N} (ho : makeProperModes e ⟨some tr, none, ch⟩ junk lam psi L.extract = .ok o) : ProperSpec h hop L o ∧ TimeReversed tr o := by
  obtain ⟨u, hf⟩ := setup_faithful en hen hL hc hst
  rw [makeProperModes, runClusters_tr e tr ch ch] at ho
  split at ho
  · cases ho
  rename_i m hm
  split at ho
  · rename_i hv
    obtain ⟨g1, g2, g3⟩ := loop_good' e he hf hi hs hm
    rw [g2] at ho
    dsimp only at ho
    generalize hσ : Tuple.sort (sortKey m.vel (fun i => -(lam i).arg) m.trim) = σ at ho
    have hsrt := g1.sorted e he hi.unit hv m.trim hσ.symm
    obtain ⟨t1, t2, t3⟩ := hsrt.tr_good hh hf he hr h1 h2
    have hmatch := hsrt.tr_match hr h1 h2
    have hpar : partners e ⟨some tr, none, ch⟩ ((fun i => -(lam i).arg) ∘ σ) (m.full.submatrix id σ, m.psi.submatrix id σ) =
        trStep e tr (m.full.submatrix id σ, m.psi.submatrix id σ) := rfl
    rw [hpar] at ho
    have ho' := Except.ok.inj ho
    constructor
    · rw [← ho']
      exact finish hf e he hi.unit hv (mom := fun i => -(lam i).arg) rfl hσ.symm t1
    · have hvel : ∀ i, (m.vel ∘ σ) (secondHalf N i) = -(m.vel ∘ σ) (firstHalf N i) := fun i => (hmatch i).2
      refine ⟨?_, ?_, ?_⟩
      · intro i
        rw [← ho']
        dsimp only
        rw [div_col, div_col, t2, t3, hvel, abs_neg, ← mulVec_smul]
        congr 1
        ext x
        simp
      · intro i
        rw [← ho']
        exact hvel i
      · intro i
        rw [← ho']
        have hm1 : (lam ∘ σ) (secondHalf N i) = (starRingEnd ℂ) ((lam ∘ σ) (firstHalf N i)) := (hmatch i).1
        show -((lam ∘ σ) (secondHalf N i)).arg = - -((lam ∘ σ) (firstHalf N i)).arg ∨ (-((lam ∘ σ) (secondHalf N i)).arg = -Real.pi ∧ -((lam ∘ σ) (firstHalf N i)).arg = -Real.pi)
        by_cases h3 : (lam ∘ σ) (firstHalf N i) = -1
        · right
          rw [hm1, h3]
          simp [Complex.arg_neg_one]
        · left
          rw [hm1, arg_conj' (hsrt.unit _) h3]
  · cases ho

/-- C156: time-reversal symmetry does not change when an error is raised. -/
theorem C156_error (e : ModeNum n) (tr : Matrix (Fin n) (Fin n) ℂ) (ch : Option (Matrix (Fin n) (Fin n) ℂ)) {r N : ℕ} (lam : Fin N → ℂ) (psi : Matrix (Fin r ⊕ Fin r) (Fin N) ℂ)
    (extract : Matrix (Fin r ⊕ Fin r) (Fin N) ℂ → (Fin N → ℂ) → Matrix (Fin n) (Fin N) ℂ) (junk : Fin N → ℝ) (x : LErr) :
    makeProperModes e ⟨some tr, none, ch⟩ junk lam psi extract = .error x ↔ makeProperModes e ⟨none, none, none⟩ junk lam psi extract = .error x := by
  rw [makeProperModes, makeProperModes, runClusters_tr e tr ch ch]
  split
  · rfl
  · split
    · constructor <;> intro h0 <;> cases h0
    · rfl

/-- C156: in any case the outgoing wave functions are proportional to the time-reversed incoming ones, in the order in which the modes are sorted. -/
theorem C156_order (e : ModeNum n) (he : e.Ok) (tr : Matrix (Fin n) (Fin n) ℂ) (ch : Option (Matrix (Fin n) (Fin n) ℂ)) {r N : ℕ} (lam : Fin N → ℂ)
    (psi : Matrix (Fin r ⊕ Fin r) (Fin N) ℂ) (extract : Matrix (Fin r ⊕ Fin r) (Fin N) ℂ → (Fin N → ℂ) → Matrix (Fin n) (Fin N) ℂ) (junk : Fin N → ℝ) {o : Proper n r N}
    (ho : makeProperModes e ⟨some tr, none, ch⟩ junk lam psi extract = .ok o) (i : Fin (N / 2)) :
    ((Real.sqrt |o.velocities (secondHalf N i)| : ℝ) : ℂ) • o.waveFunctions.col (secondHalf N i) =
      ((Real.sqrt |o.velocities (firstHalf N i)| : ℝ) : ℂ) • (tr *ᵥ star (o.waveFunctions.col (firstHalf N i))) := by
  rw [makeProperModes] at ho
  split at ho
  · cases ho
  rename_i m hm
  split at ho
  · rename_i hv
    rw [velCheck, decide_eq_true_eq] at hv
    have hne : ∀ j, ((Real.sqrt |m.vel j| : ℝ) : ℂ) ≠ 0 := by
      intro j
      refine Complex.ofReal_ne_zero.mpr (Real.sqrt_pos.mpr (abs_pos.mpr fun h0 => hv.1 j ?_)).ne'
      rw [h0, abs_zero]
      exact he.velEps
    dsimp only at ho
    generalize hσ : Tuple.sort (sortKey m.vel (fun i => -(m.lam i).arg) m.trim) = σ at ho
    have hpar : partners e ⟨some tr, none, ch⟩ ((fun i => -(m.lam i).arg) ∘ σ) (m.full.submatrix id σ, m.psi.submatrix id σ) =
        trStep e tr (m.full.submatrix id σ, m.psi.submatrix id σ) := rfl
    rw [hpar] at ho
    have hne' : ∀ j, ((Real.sqrt |(m.vel ∘ σ) j| : ℝ) : ℂ) ≠ 0 := fun j => hne (σ j)
    have ho' := Except.ok.inj ho
    have t2 : (trStep e tr (m.full.submatrix id σ, m.psi.submatrix id σ)).1.col (secondHalf N i) = tr *ᵥ star ((m.full.submatrix id σ).col (firstHalf N i)) := by
      rw [trStep, updCols_col_sel (secondHalf_inj N)]
      rfl
    have t3 : (trStep e tr (m.full.submatrix id σ, m.psi.submatrix id σ)).1.col (firstHalf N i) = (m.full.submatrix id σ).col (firstHalf N i) := by
      refine updCols_col_not _ _ fun j h0 => ?_
      have := congrArg Fin.val h0
      simp only [firstHalf, secondHalf, Fin.val_castLE] at this
      have := i.2
      omega
    rw [← ho']
    dsimp only
    rw [div_col, div_col, t2, t3, smul_smul, mul_inv_cancel₀ (hne' _), one_smul, ← mulVec_smul]
    congr 1
    ext x
    simp only [Pi.smul_apply, Pi.star_apply, smul_eq_mul, star_mul', star_inv₀]
    rw [star_def, Complex.conj_ofReal, ← mul_assoc, mul_inv_cancel₀ (hne' _), one_mul]
  · cases ho

end main

end Kwant.Leads
