import Verif.Leads.BlockProps
import Mathlib.Tactic.LinearCombination
import Mathlib.Tactic.FinCases

/-!
C113, second part: numbers of modes, currents, and the solutions that the modes stand for.
-/

set_option linter.unusedSectionVars false

namespace Kwant.Leads
open Matrix Complex

variable {n r : ℕ}

/-! ### Specification -/

/-- What the solvers use of the modes of a lead (one block). -/
structure BlockSpec (h hop : Matrix (Fin n) (Fin n) ℂ) (m : BlockModes n) : Prop where
  even : m.N = m.N / 2 + m.N / 2
  number : m.N / 2 + m.q = m.r
  nonzero : ∀ i, m.velocities i ≠ 0
  /-- The modes moving towards the scattering region come first. -/
  halves : ∀ i, m.velocities i < 0 ↔ i.val < m.N / 2
  range : ∀ i, -Real.pi ≤ m.momenta i ∧ m.momenta i < Real.pi
  orthogonal : ∀ i j, m.momenta i = m.momenta j → star (m.waveFunctions.col i) ⬝ᵥ m.waveFunctions.col j = if i = j then ((1 / |m.velocities i| : ℝ) : ℂ) else 0
  velocity : ∀ i j, m.momenta i = m.momenta j → star (m.waveFunctions.col i) ⬝ᵥ (velK hop (m.momenta i) *ᵥ m.waveFunctions.col j) =
    if i = j then ((m.velocities i / |m.velocities i| : ℝ) : ℂ) else 0
  /-- Every Bloch wave is a combination of the modes of its momentum. -/
  complete : ∀ (k : ℝ) (ψ : Fin n → ℂ), IsBloch h hop (cexp (-(I * k))) ψ → ∃ c : Fin m.N → ℂ,
    (∀ i, cexp (-(I * m.momenta i)) ≠ cexp (-(I * k)) → c i = 0) ∧ ψ = m.waveFunctions *ᵥ c
  sorted : ∀ i j, i < j → m.velocities i < 0 → m.velocities j < 0 → m.momenta i < m.momenta j ∨ (m.momenta i = m.momenta j ∧ m.velocities i ≤ m.velocities j)
  sorted' : ∀ i j, i < j → 0 < m.velocities i → 0 < m.velocities j → m.momenta j < m.momenta i ∨ (m.momenta i = m.momenta j ∧ m.velocities i ≤ m.velocities j)
  /-- The hopping is `u vᴴ`.  A propagating mode is a Bloch wave `Ψ_j = μ^-j ψ`, with `vᴴ Ψ_(-1)`... in terms of the cell `j = 0`: the first half of the mode is
  `vᴴ ψ`, the second one is `uᴴ ψ / μ`.  The evanescent modes are the solutions `Ψ_j = Φ E^j` in the lead, the powers of `E` decay, and `u X` is what replaces
  `hop Ψ_(-1)`. -/
  solves : ∃ u : Matrix (Fin n) (Fin m.r) ℂ, hop = u * m.vᴴ ∧ (∀ x, u *ᵥ x = 0 → x = 0) ∧
    (∀ i, IsBloch h hop (cexp (-(I * m.momenta i))) (m.waveFunctions.col i) ∧ m.vecslmbdainv.col (.inl i) = m.vᴴ *ᵥ m.waveFunctions.col i ∧
      cexp (-(I * m.momenta i)) • m.vecs.col (.inl i) = uᴴ *ᵥ m.waveFunctions.col i) ∧
    ∃ (Φ : Matrix (Fin n) (Fin m.q) ℂ) (E : Matrix (Fin m.q) (Fin m.q) ℂ), (∀ i j, j < i → E i j = 0) ∧ (∀ i, ‖E i i‖ < 1) ∧
      m.vecslmbdainv.toCols₂ * E = m.vᴴ * Φ ∧ m.vecs.toCols₂ = uᴴ * Φ ∧ h * Φ + m.v * (m.vecs.toCols₂ * E) + u * m.vecslmbdainv.toCols₂ = 0
  /-- The first half of the propagating modes carries unit current towards the scattering region, the other half away from it, the evanescent modes none. -/
  current : current m.vecslmbdainv m.vecs = diagonal (Sum.elim (fun i : Fin m.N => if i.val < m.N / 2 then (-1 : ℂ) else 1) fun _ => 0)
  /-- The evanescent modes are linearly independent. -/
  indep : ∀ c, m.vecslmbdainv.toCols₂ *ᵥ c = 0 → m.vecs.toCols₂ *ᵥ c = 0 → c = 0

/-! ### The eigenvalues -/

theorem unified_spec {e : EigNum} (he : e.Ok) (a : Matrix (Fin r ⊕ Fin r) (Fin r ⊕ Fin r) ℂ) (b : Option (Matrix (Fin r ⊕ Fin r) (Fin r ⊕ Fin r) ℂ)) :
    EigOk a (b.getD 1) (e.eig a b) ∧ (∀ i, (unifiedEigenproblem e a b).evanselect i = true ↔ ‖(e.eig a b).alpha i‖ > (1 + e.eps) * ‖(e.eig a b).beta i‖) ∧
    (∀ i, (unifiedEigenproblem e a b).propselect i = true ↔ |‖(e.eig a b).alpha i‖ - ‖(e.eig a b).beta i‖| < e.eps * ‖(e.eig a b).beta i‖) ∧
    (∀ i, (unifiedEigenproblem e a b).ev i = (e.eig a b).alpha i / (e.eig a b).beta i) ∧
    (unifiedEigenproblem e a b).vecGen = (e.eig a b).vecGen ∧ (unifiedEigenproblem e a b).ordSchur = (e.eig a b).ordSchur := by
  cases b with
  | none =>
    obtain ⟨h1, h2⟩ := he.schur a
    have hb : ∀ i, (e.schur a).beta i = 1 := fun i => congrFun h2 i
    refine ⟨h1, fun i => ?_, fun i => ?_, fun i => ?_, rfl, rfl⟩
    · simp [unifiedEigenproblem, EigNum.eig, hb]
    · simp [unifiedEigenproblem, EigNum.eig, hb]
    · simp [unifiedEigenproblem, EigNum.eig, hb]
  | some b =>
    refine ⟨he.genSchur a b, fun i => ?_, fun i => ?_, fun i => rfl, rfl, rfl⟩
    · simp [unifiedEigenproblem, EigNum.eig]
    · simp [unifiedEigenproblem, EigNum.eig]

theorem regular_of_flat {h hop : Matrix (Fin n) (Fin n) ℂ} {L : Linsys n} {u : Matrix (Fin n) (Fin L.r) ℂ} (hf : Faithful h hop L u) (hfl : NoFlatBand h hop) :
    RegularPencil L.a (L.b.getD 1) := by
  obtain ⟨μ, h0, h1⟩ := hfl
  refine ⟨μ, fun x hx => ?_⟩
  obtain ⟨ψ, g1, g2, _⟩ := (hf.solution h0 x).mp ((solution_iff_getD L μ x).mpr hx)
  rw [h1 ψ g1, mulVec_zero, mulVec_zero, smul_zero] at g2
  rw [g2]
  ext i
  rcases i with i | i <;> rfl

/-- In a regular pencil `alpha` and `beta` do not vanish together. -/
theorem alpha_beta_ne {a b : Matrix (Fin r ⊕ Fin r) (Fin r ⊕ Fin r) ℂ} (hr : RegularPencil a b) {alpha beta : Fin (r + r) → ℂ} {sel : Fin (r + r) → Bool}
    {z : Matrix (Fin r ⊕ Fin r) (Fin (r + r)) ℂ} (hz : OrdSchurOk a b alpha beta sel z) (i : Fin (r + r)) : ¬(alpha i = 0 ∧ beta i = 0) := by
  rintro ⟨h1, h2⟩
  obtain ⟨μ, hμ⟩ := hr
  obtain ⟨hz1, q, s, t, σ, ha, hb, hs, ht, hsd, htd, _⟩ := hz
  have hdet : (s - μ • t).det = 0 := by
    have hbt : (s - μ • t).BlockTriangular id := by
      intro i j hij
      rw [Matrix.sub_apply, Matrix.smul_apply, hs i j hij, ht i j hij, smul_zero, sub_zero]
    rw [det_of_isUpperTriangular hbt]
    refine Finset.prod_eq_zero (Finset.mem_univ (σ.symm i)) ?_
    rw [Matrix.sub_apply, Matrix.smul_apply, hsd, htd, Equiv.apply_symm_apply, h1, h2, smul_zero, sub_zero]
  obtain ⟨x, hx0, hx⟩ := exists_mulVec_eq_zero_iff.mpr hdet
  have h3 : z *ᵥ x = 0 := by
    apply hμ
    rw [mulVec_mulVec, ha, mulVec_mulVec, hb, ← mulVec_mulVec, ← mulVec_mulVec, ← sub_eq_zero, ← mulVec_smul, ← mulVec_sub, ← smul_mulVec, ← sub_mulVec, hx, mulVec_zero]
  apply hx0
  have := congrArg (zᴴ *ᵥ ·) h3
  simp only [mulVec_mulVec, hz1, one_mulVec, mulVec_zero] at this
  exact this

theorem selected_card (sel : Fin (r + r) → Bool) : (selected sel).length = (Finset.univ.filter fun i => sel i = true).card := by
  rw [selected, ← List.toFinset_card_of_nodup (List.Nodup.filter _ (List.nodup_finRange _))]
  congr 1
  ext i
  simp

theorem mem_selected {sel : Fin (r + r) → Bool} {i : Fin (r + r)} : i ∈ selected sel ↔ sel i = true := by
  simp [selected]

/-- The classification of the eigenvalues. -/
theorem classify {e : EigNum} (heps : 0 < e.eps) {s : Eig r} (hg : CircleGap e.eps s) (hne : ∀ i, ¬(s.alpha i = 0 ∧ s.beta i = 0)) (i : Fin (r + r)) :
    (‖s.alpha i‖ > (1 + e.eps) * ‖s.beta i‖ ↔ ‖s.beta i‖ < ‖s.alpha i‖) ∧
    (|‖s.alpha i‖ - ‖s.beta i‖| < e.eps * ‖s.beta i‖ ↔ ‖s.alpha i‖ = ‖s.beta i‖) := by
  have hb := norm_nonneg (s.beta i)
  have hm : 0 ≤ e.eps * ‖s.beta i‖ := mul_nonneg heps.le hb
  constructor
  · constructor
    · intro h; nlinarith
    · intro h
      rcases hg i with h1 | h1 | h1
      · linarith
      · exact h1
      · nlinarith
  · constructor
    · intro h
      rw [abs_lt] at h
      rcases hg i with h1 | h1 | h1
      · exact h1
      · nlinarith
      · nlinarith
    · intro h
      rw [h, sub_self, abs_zero]
      refine mul_pos heps (norm_pos_iff.mpr fun h0 => ?_)
      rw [h0, norm_zero, norm_eq_zero] at h
      exact hne i ⟨h, h0⟩

open Classical in
/-- The numbers of modes: as many decaying as growing ones. -/
theorem count_modes {h hop : Matrix (Fin n) (Fin n) ℂ} (hh : hᴴ = h) {L : Linsys n} {u : Matrix (Fin n) (Fin L.r) ℂ} (hf : Faithful h hop L u)
    (hr : RegularPencil L.a (L.b.getD 1)) {s : Eig L.r} (hs : EigOk L.a (L.b.getD 1) s) :
    2 * (Finset.univ.filter fun i => ‖s.beta i‖ < ‖s.alpha i‖).card + (Finset.univ.filter fun i => ‖s.alpha i‖ = ‖s.beta i‖).card = L.r + L.r := by
  have hne : ∀ i, ¬(s.alpha i = 0 ∧ s.beta i = 0) := alpha_beta_ne hr (hs.ordSchur hr fun _ => true)
  -- the decaying modes
  have ineq1 : (Finset.univ.filter fun i => ‖s.beta i‖ < ‖s.alpha i‖).card + (Finset.univ.filter fun i => ‖s.beta i‖ ≤ ‖s.alpha i‖).card ≤ L.r + L.r := by
    let sel1 : Fin (L.r + L.r) → Bool := fun i => decide (‖s.beta i‖ < ‖s.alpha i‖)
    let sel2 : Fin (L.r + L.r) → Bool := fun i => decide (‖s.beta i‖ ≤ ‖s.alpha i‖)
    have a1 : ∀ i, sel1 i = true → s.alpha i ≠ 0 := by
      intro i hi h0
      have := of_decide_eq_true hi
      rw [h0, norm_zero] at this
      exact absurd this (not_lt.mpr (norm_nonneg _))
    have a2 : ∀ i, sel2 i = true → s.alpha i ≠ 0 := by
      intro i hi h0
      have := of_decide_eq_true hi
      rw [h0, norm_zero] at this
      exact hne i ⟨h0, norm_eq_zero.mp (le_antisymm this (norm_nonneg _))⟩
    obtain ⟨u1, p1, _⟩ := deflate (hs.ordSchur hr sel1) (selected_le sel1) le_rfl
    obtain ⟨u2, p2, _⟩ := deflate (hs.ordSchur hr sel2) (selected_le sel2) le_rfl
    obtain ⟨E1, t1, d1, q1⟩ := p1 a1
    obtain ⟨E2, t2, d2, q2⟩ := p2 a2
    have hc := cross_conserved hh hf q1 q2
    have one_tri : ∀ {k : ℕ} (i j : Fin k), j < i → (1 : Matrix (Fin k) (Fin k) ℂ) i j = 0 := fun i j hij => one_apply_ne (ne_of_gt hij)
    have h0 := stein_zero t1 one_tri t2 one_tri hc (by
      intro i j
      obtain ⟨a, ha, ha'⟩ := d1 i
      obtain ⟨b, hb, hb'⟩ := d2 j
      rw [one_apply_eq, one_apply_eq, star_one, one_mul]
      intro h1
      have h2 := congrArg norm h1
      rw [norm_one, norm_mul, norm_star, ha', hb', norm_div, norm_div] at h2
      have x1 : ‖s.beta a‖ / ‖s.alpha a‖ < 1 := (div_lt_one (norm_pos_iff.mpr (a1 a ha))).mpr (of_decide_eq_true ha)
      have x2 : ‖s.beta b‖ / ‖s.alpha b‖ ≤ 1 := (div_le_one (norm_pos_iff.mpr (a2 b hb))).mpr (of_decide_eq_true hb)
      have x3 : 0 ≤ ‖s.beta a‖ / ‖s.alpha a‖ := by positivity
      nlinarith)
    have := cross_rank u1 u2 h0
    rw [selected_card, selected_card] at this
    simpa [sel1, sel2] using this
  have ineq2 : (Finset.univ.filter fun i => ‖s.alpha i‖ < ‖s.beta i‖).card + (Finset.univ.filter fun i => ‖s.alpha i‖ ≤ ‖s.beta i‖).card ≤ L.r + L.r := by
    let sel1 : Fin (L.r + L.r) → Bool := fun i => decide (‖s.alpha i‖ < ‖s.beta i‖)
    let sel2 : Fin (L.r + L.r) → Bool := fun i => decide (‖s.alpha i‖ ≤ ‖s.beta i‖)
    have a1 : ∀ i, sel1 i = true → s.beta i ≠ 0 := by
      intro i hi h0
      have := of_decide_eq_true hi
      rw [h0, norm_zero] at this
      exact absurd this (not_lt.mpr (norm_nonneg _))
    have a2 : ∀ i, sel2 i = true → s.beta i ≠ 0 := by
      intro i hi h0
      have := of_decide_eq_true hi
      rw [h0, norm_zero] at this
      exact hne i ⟨norm_eq_zero.mp (le_antisymm this (norm_nonneg _)), h0⟩
    obtain ⟨u1, _, p1⟩ := deflate (hs.ordSchur hr sel1) (selected_le sel1) le_rfl
    obtain ⟨u2, _, p2⟩ := deflate (hs.ordSchur hr sel2) (selected_le sel2) le_rfl
    obtain ⟨E1, t1, d1, q1⟩ := p1 a1
    obtain ⟨E2, t2, d2, q2⟩ := p2 a2
    have hc := cross_conserved hh hf q1 q2
    have one_tri : ∀ {k : ℕ} (i j : Fin k), j < i → (1 : Matrix (Fin k) (Fin k) ℂ) i j = 0 := fun i j hij => one_apply_ne (ne_of_gt hij)
    have h0 := stein_zero one_tri t1 one_tri t2 hc (by
      intro i j
      obtain ⟨a, ha, ha'⟩ := d1 i
      obtain ⟨b, hb, hb'⟩ := d2 j
      rw [one_apply_eq, one_apply_eq, star_one, one_mul]
      intro h1
      have h2 := congrArg norm h1
      rw [norm_one, norm_mul, norm_star, ha', hb', norm_div, norm_div] at h2
      have x1 : ‖s.alpha a‖ / ‖s.beta a‖ < 1 := (div_lt_one (norm_pos_iff.mpr (a1 a ha))).mpr (of_decide_eq_true ha)
      have x2 : ‖s.alpha b‖ / ‖s.beta b‖ ≤ 1 := (div_le_one (norm_pos_iff.mpr (a2 b hb))).mpr (of_decide_eq_true hb)
      have x3 : 0 ≤ ‖s.alpha a‖ / ‖s.beta a‖ := by positivity
      nlinarith)
    have := cross_rank u1 u2 h0
    rw [selected_card, selected_card] at this
    simpa [sel1, sel2] using this
  have split1 : (Finset.univ.filter fun i => ‖s.beta i‖ ≤ ‖s.alpha i‖).card + (Finset.univ.filter fun i => ‖s.alpha i‖ < ‖s.beta i‖).card = L.r + L.r := by
    have := Finset.card_filter_add_card_filter_not (s := (Finset.univ : Finset (Fin (L.r + L.r)))) (fun i => ‖s.beta i‖ ≤ ‖s.alpha i‖)
    simp only [not_le] at this
    rw [this, Finset.card_univ, Fintype.card_fin]
  have split2 : (Finset.univ.filter fun i => ‖s.alpha i‖ ≤ ‖s.beta i‖).card + (Finset.univ.filter fun i => ‖s.beta i‖ < ‖s.alpha i‖).card = L.r + L.r := by
    have := Finset.card_filter_add_card_filter_not (s := (Finset.univ : Finset (Fin (L.r + L.r)))) (fun i => ‖s.alpha i‖ ≤ ‖s.beta i‖)
    simp only [not_le] at this
    rw [this, Finset.card_univ, Fintype.card_fin]
  have split3 : (Finset.univ.filter fun i => ‖s.beta i‖ ≤ ‖s.alpha i‖).card =
      (Finset.univ.filter fun i => ‖s.beta i‖ < ‖s.alpha i‖).card + (Finset.univ.filter fun i => ‖s.alpha i‖ = ‖s.beta i‖).card := by
    rw [← Finset.card_union_of_disjoint]
    · congr 1
      ext i
      simp only [Finset.mem_filter, Finset.mem_univ, true_and, Finset.mem_union]
      rw [le_iff_lt_or_eq, eq_comm (a := ‖s.beta i‖)]
    · rw [Finset.disjoint_filter]
      intro i _ h1 h2
      exact absurd h2 (ne_of_gt h1)
  omega

/-! ### Propagating modes -/

theorem unit_exp {μ : ℂ} (hμ : ‖μ‖ = 1) : cexp (-(I * ((-μ.arg : ℝ) : ℂ))) = μ := by
  have h := Complex.norm_mul_exp_arg_mul_I μ
  rw [hμ, Complex.ofReal_one, one_mul] at h
  conv_rhs => rw [← h]
  congr 1
  push_cast
  ring

theorem pencil_of_solution {L : Linsys n} {μ : ℂ} {x : Fin L.r ⊕ Fin L.r → ℂ} (hx : L.Solution μ x) :
    L.Pencil (of fun i (_ : Fin 1) => x i) 1 (of fun _ _ => μ) := by
  rw [pencil_iff_cols]
  refine ⟨_, rfl, ?_⟩
  rw [solution_iff_getD] at hx
  rw [Matrix.mul_one, ← Matrix.mul_assoc]
  ext i j
  have := congrFun hx i
  refine Eq.trans (b := (L.a *ᵥ x) i) rfl ?_
  rw [this, Matrix.mul_apply, Fin.sum_univ_one, mul_comm]
  rfl

/-- Away from the band edges the eigenvalues on the unit circle are not defective. -/
theorem semisimple_of_edge {h hop : Matrix (Fin n) (Fin n) ℂ} (hh : hᴴ = h) {L : Linsys n} {u : Matrix (Fin n) (Fin L.r) ℂ} (hf : Faithful h hop L u)
    (hb : NoBandEdge h hop) {μ : ℂ} (hμ : ‖μ‖ = 1) : Semisimple L.a (L.b.getD 1) μ := by
  intro x y hx hy
  have hμ0 := unit_ne hμ
  obtain ⟨ψ, g1, g2, g3⟩ := (hf.solution hμ0 x).mp ((solution_iff_getD L μ x).mpr hx)
  have hlψ : Link h hop u L.v μ x ψ := ⟨g2, g1⟩
  suffices hψ : ψ = 0 by
    rw [hψ, mulVec_zero, mulVec_zero, smul_zero] at g2
    have : x = 0 := by
      rw [g2]
      ext i
      rcases i with i | i <;> rfl
    rw [this, mulVec_zero]
  have hk := unit_exp hμ
  refine hb (-μ.arg) ψ (by rw [hk]; exact g1) fun φ hφ => ?_
  rw [hk] at hφ
  have hlφ : Link h hop u L.v μ (Sum.elim (L.vᴴ *ᵥ φ) (μ⁻¹ • (uᴴ *ᵥ φ))) φ := ⟨rfl, hφ⟩
  set w := (Sum.elim (L.vᴴ *ᵥ φ) (μ⁻¹ • (uᴴ *ᵥ φ)) : Fin L.r ⊕ Fin L.r → ℂ) with hw
  have hsol := ((link_iff hf hμ0 _ _).mp hlφ).1
  -- the chain as a pencil
  have hchain : L.Pencil (of fun i => ![x i, y i]) 1 (of ![![μ, 1], ![0, μ]]) := by
    rw [pencil_iff_cols]
    refine ⟨_, rfl, ?_⟩
    rw [Matrix.mul_one, ← Matrix.mul_assoc]
    ext i j
    have hx' := congrFun hx i
    have hy' := congrFun hy i
    fin_cases j
    · refine Eq.trans (b := (L.a *ᵥ x) i) rfl ?_
      rw [hx', Pi.smul_apply, smul_eq_mul, Matrix.mul_apply, Fin.sum_univ_two]
      change _ = (L.b.getD 1 *ᵥ x) i * μ + (L.b.getD 1 *ᵥ y) i * 0
      ring
    · refine Eq.trans (b := (L.a *ᵥ y) i) rfl ?_
      rw [hy', Pi.add_apply, Pi.smul_apply, smul_eq_mul, Matrix.mul_apply, Fin.sum_univ_two]
      change _ = (L.b.getD 1 *ᵥ x) i * 1 + (L.b.getD 1 *ᵥ y) i * μ
      ring
  have hc := cross_conserved hh hf (pencil_of_solution hsol) hchain
  rw [conjTranspose_one, Matrix.one_mul, Matrix.mul_one] at hc
  have h01 := congrFun (congrFun hc 0) 1
  rw [Matrix.mul_apply, Fin.sum_univ_two] at h01
  have hm : ∀ M : Matrix (Fin 1) (Fin 2) ℂ, ∀ j, ((of fun _ _ => μ : Matrix (Fin 1) (Fin 1) ℂ)ᴴ * M) 0 j = (starRingEnd ℂ) μ * M 0 j := by
    intro M j
    rw [Matrix.mul_apply, Fin.sum_univ_one]
    rfl
  rw [hm, hm] at h01
  set c := cross (of fun i (_ : Fin 1) => w i) (of fun i => ![x i, y i]) with hcdef
  have hmm : (starRingEnd ℂ) μ * μ = 1 := by
    rw [← Complex.normSq_eq_conj_mul_self, Complex.normSq_eq_norm_sq, hμ]; norm_num
  have hz : (starRingEnd ℂ) μ * c 0 0 = 0 := by
    have e1 : (of ![![μ, 1], ![0, μ]] : Matrix (Fin 2) (Fin 2) ℂ) 0 1 = 1 := rfl
    have e2 : (of ![![μ, 1], ![0, μ]] : Matrix (Fin 2) (Fin 2) ℂ) 1 1 = μ := rfl
    rw [e1, e2] at h01
    linear_combination (-1 : ℂ) * h01 - c 0 1 * hmm
  have hc0 : c 0 0 = 0 := by
    have h1 : μ * ((starRingEnd ℂ) μ * c 0 0) = 0 := by rw [hz, mul_zero]
    rw [← mul_assoc, mul_comm μ, hmm, one_mul] at h1
    exact h1
  -- the current is the velocity
  have key := velOpMat_eq (k := 2) hμ hf.fact (psi := of fun i => ![w i, x i]) (full := of fun i => ![φ i, ψ i])
    (by
      intro a
      fin_cases a
      · exact hlφ
      · exact hlψ)
  have k01 := congrFun (congrFun key 0) 1
  have hcur : velOpMat (of fun i => ![w i, x i]) 0 1 = c 0 0 := by
    rw [hcdef]
    have : velOpMat (of fun i => ![w i, x i]) = current (of fun i => ![w i, x i] : Matrix (Fin L.r ⊕ Fin L.r) (Fin 2) ℂ).toRows₁ (of fun i => ![w i, x i]).toRows₂ := rfl
    rw [this, current_eq]
    rfl
  rw [hcur, hc0, Matrix.mul_assoc] at k01
  rw [velK_eq, hk]
  exact k01.symm

/-- The eigenvectors that `compute_block_modes` passes to `make_proper_modes`. -/
theorem propInput_block {h hop : Matrix (Fin n) (Fin n) ℂ} (hh : hᴴ = h) {L : Linsys n} {u : Matrix (Fin n) (Fin L.r) ℂ} (hf : Faithful h hop L u)
    (hb : NoBandEdge h hop) (hfl : NoFlatBand h hop) {e : EigNum} (he : e.Ok) (hg : CircleGap e.eps (e.eig L.a L.b)) :
    PropInput L ((unifiedEigenproblem e L.a L.b).ev ∘ (selected (unifiedEigenproblem e L.a L.b).propselect).get)
      ((unifiedEigenproblem e L.a L.b).vecGen (selected (unifiedEigenproblem e L.a L.b).propselect)) := by
  obtain ⟨hs, h1, h2, h3, h4, h5⟩ := unified_spec he L.a L.b
  have hr := regular_of_flat hf hfl
  have hne : ∀ i, ¬((e.eig L.a L.b).alpha i = 0 ∧ (e.eig L.a L.b).beta i = 0) := alpha_beta_ne hr (hs.ordSchur hr fun _ => true)
  rw [h4]
  generalize hp : unifiedEigenproblem e L.a L.b = p at *
  generalize e.eig L.a L.b = s at *
  have hprop : ∀ i, p.propselect i = true ↔ ‖s.alpha i‖ = ‖s.beta i‖ := fun i => (h2 i).trans (classify he.eps hg hne i).2
  have hbne : ∀ i, p.propselect i = true → s.beta i ≠ 0 := by
    intro i hi h0
    have := (hprop i).mp hi
    rw [h0, norm_zero, norm_eq_zero] at this
    exact hne i ⟨this, h0⟩
  have hget : ∀ i, p.propselect ((selected p.propselect).get i) = true := fun i => mem_selected.mp (List.get_mem _ i)
  have hev := hs.evecs hr (selected p.propselect) (List.Nodup.filter _ (List.nodup_finRange _))
  have hiff : ∀ i μ, p.ev ((selected p.propselect).get i) ≠ μ ↔ s.alpha ((selected p.propselect).get i) ≠ μ * s.beta ((selected p.propselect).get i) := by
    intro i μ
    rw [h3, ne_eq, ne_eq, div_eq_iff (hbne _ (hget i))]
  have unit : ∀ i, ‖p.ev ((selected p.propselect).get i)‖ = 1 := by
    intro i
    rw [h3, norm_div, (hprop _).mp (hget i), div_self]
    exact norm_ne_zero_iff.mpr (hbne _ (hget i))
  refine ⟨unit, ?_, ?_, ?_⟩
  · intro i
    rw [solution_iff_getD]
    have h6 := hev.solution i
    have hb0 := hbne _ (hget i)
    change L.a *ᵥ _ = p.ev _ • _
    rw [h3]
    have := congrArg ((s.beta ((selected p.propselect).get i))⁻¹ • ·) h6
    simp only [smul_smul] at this
    rw [inv_mul_cancel₀ hb0, one_smul] at this
    rw [this, mul_comm, div_eq_mul_inv]
  · intro μ c hc hx
    by_cases hex : ∃ i, p.ev ((selected p.propselect).get i) = μ
    · obtain ⟨i, hi⟩ := hex
      have hμ : ‖μ‖ = 1 := by rw [← hi]; exact unit i
      exact hev.indep μ (semisimple_of_edge hh hf hb hμ) c (fun i hi => hc i ((hiff i μ).mpr hi)) hx
    · push Not at hex
      ext i
      exact hc i (hex i)
  · intro μ x hμ hx
    rw [solution_iff_getD] at hx
    obtain ⟨c, hc, hxc⟩ := hev.complete μ (semisimple_of_edge hh hf hb hμ) (fun i hi => by
      rw [mem_selected, hprop, hi, norm_mul, hμ, one_mul]) x hx
    exact ⟨c, fun i hi => hc i ((hiff i μ).mp hi), hxc⟩

/-- Whatever `make_proper_modes` returns for the propagating modes of the block are proper modes (C109, C156-C159). -/
def AlwaysProper (e : BlockNum n) (sy : Symm n) (h hop : Matrix (Fin n) (Fin n) ℂ) (stab : Option (Option Bool × Bool)) : Prop :=
  ∀ L, setupLinsys e.lin h hop stab = .ok L → ∀ (N : ℕ) (lam : Fin N → ℂ) (psi : Matrix (Fin L.r ⊕ Fin L.r) (Fin N) ℂ) (junk : Fin N → ℝ), PropInput L lam psi → Separated e.mode lam →
    ∀ o, makeProperModes e.mode sy junk lam psi L.extract = .ok o → ProperSpec h hop L o

/-- **C113**: the modes of a block of a Hermitian lead, with any discrete symmetries for which `make_proper_modes` works. -/
theorem C113_block_of (e : BlockNum n) {h hop : Matrix (Fin n) (Fin n) ℂ} (he : e.Ok hop) (hh : h.IsHermitian) (hc : CutExact e.lin hop) (hb : NoBandEdge h hop)
    (hfl : NoFlatBand h hop) {stab : Option (Option Bool × Bool)} (hst : ∀ s0, stab = some (s0, true) → NoInfinite h hop)
    (hsep : ∀ L, setupLinsys e.lin h hop stab = .ok L → WellSeparated e L) (junk : (N : ℕ) → Fin N → ℝ) {m : BlockModes n} {sy : Symm n}
    (hpr : AlwaysProper e sy h hop stab) (hm : computeBlockModes e sy junk h hop stab = .ok m) : BlockSpec h hop m := by
  rw [computeBlockModes] at hm
  split at hm
  · cases hm
  rename_i L hL
  obtain ⟨hg, hsp⟩ := hsep L hL
  obtain ⟨u, hf⟩ := setup_faithful e.lin he.lin hL hc hst
  have hin := propInput_block hh hf hb hfl he.eig hg
  obtain ⟨hs, h1, h2, h3, h4, h5⟩ := unified_spec he.eig L.a L.b
  have hr := regular_of_flat hf hfl
  have hne : ∀ i, ¬((e.eig.eig L.a L.b).alpha i = 0 ∧ (e.eig.eig L.a L.b).beta i = 0) := alpha_beta_ne hr (hs.ordSchur hr fun _ => true)
  have hcount := count_modes hh hf hr hs
  generalize hp : unifiedEigenproblem e.eig L.a L.b = p at *
  generalize e.eig.eig L.a L.b = s at *
  rw [blockOf] at hm
  split at hm
  · cases hm
  rename_i o ho
  have hspec := hpr L hL _ _ _ _ hin hsp o ho
  have hcurr := C109_current hh e.lin he.lin hL hc hst hspec
  cases hm
  have hprop : ∀ i, p.propselect i = true ↔ ‖s.alpha i‖ = ‖s.beta i‖ := fun i => (h2 i).trans (classify he.eig.eps hg hne i).2
  have hevan : ∀ i, p.evanselect i = true ↔ ‖s.beta i‖ < ‖s.alpha i‖ := fun i => (h1 i).trans (classify he.eig.eps hg hne i).1
  have c1 : (selected p.propselect).length = (Finset.univ.filter fun i => ‖s.alpha i‖ = ‖s.beta i‖).card := by
    rw [selected_card]; simp only [hprop]
  have c2 : (selected p.evanselect).length = (Finset.univ.filter fun i => ‖s.beta i‖ < ‖s.alpha i‖).card := by
    rw [selected_card]; simp only [hevan]
  have hk : L.r - (selected p.propselect).length / 2 = (selected p.evanselect).length := by
    rw [c1, c2]; omega
  -- the evanescent modes
  have a1 : ∀ i, p.evanselect i = true → s.alpha i ≠ 0 := by
    intro i hi h0
    have := (hevan i).mp hi
    rw [h0, norm_zero] at this
    exact absurd this (not_lt.mpr (norm_nonneg _))
  rw [h5] at *
  obtain ⟨u1, p1, _⟩ := deflate (hs.ordSchur hr p.evanselect) (nevan_le L.r ((selected p.propselect).length / 2)) hk.le
  obtain ⟨E, t1, d1, q1⟩ := p1 a1
  have dec : ∀ i, ‖E i i‖ < 1 := by
    intro i
    obtain ⟨j, hj, hj'⟩ := d1 i
    rw [hj', norm_div]
    exact (div_lt_one (norm_pos_iff.mpr (a1 j hj))).mpr ((hevan j).mp hj)
  set z := (s.ordSchur p.evanselect).submatrix id (Fin.castLE (nevan_le L.r ((selected p.propselect).length / 2))) with hz
  set μ : Fin (selected p.propselect).length → ℂ := fun i => cexp (-(I * o.momenta i)) with hμ
  have hμ1 : ∀ i, ‖μ i‖ = 1 := fun i => norm_cexp_mom _
  have hp1 : L.Pencil o.psi 1 (diagonal μ) := by
    rw [pencil_iff_cols]
    refine ⟨_, rfl, ?_⟩
    rw [Matrix.mul_one, ← Matrix.mul_assoc]
    ext x i
    have := congrFun ((solution_iff_getD L _ _).mp (hspec.solution i)) x
    rw [Matrix.mul_diagonal]
    refine Eq.trans this ?_
    rw [Pi.smul_apply, smul_eq_mul, mul_comm]
    rfl
  have one_tri : ∀ {k : ℕ} (i j : Fin k), j < i → (1 : Matrix (Fin k) (Fin k) ℂ) i j = 0 := fun i j hij => one_apply_ne (ne_of_gt hij)
  have xpe : cross o.psi z = 0 := by
    refine stein_zero one_tri (fun i j hij => diagonal_apply_ne _ (ne_of_gt hij)) t1 one_tri (cross_conserved hh hf hp1 q1) ?_
    intro i j h6
    rw [one_apply_eq, one_apply_eq, star_one, one_mul, mul_one, diagonal_apply_eq] at h6
    have := congrArg norm h6
    rw [norm_star, hμ1] at this
    exact absurd this (ne_of_lt (dec j))
  have xee : cross z z = 0 := by
    refine stein_zero t1 one_tri t1 one_tri (cross_conserved hh hf q1 q1) ?_
    intro i j h6
    rw [one_apply_eq, one_apply_eq, star_one, one_mul] at h6
    have := congrArg norm h6
    rw [norm_one, norm_mul, norm_star] at this
    have x1 := dec i
    have x2 := dec j
    have x3 := norm_nonneg (E i i)
    nlinarith
  have hcr : ∀ {K M : Type} (Z : Matrix (Fin L.r ⊕ Fin L.r) K ℂ) (W : Matrix (Fin L.r ⊕ Fin L.r) M ℂ), cross W Z = (cross Z W)ᴴ := by
    intro K M Z W
    rw [cross, cross, conjTranspose_smul, conjTranspose_sub, conjTranspose_mul, conjTranspose_mul, conjTranspose_conjTranspose, conjTranspose_conjTranspose,
      star_def, conj_I, neg_smul, ← smul_neg, neg_sub]
  have xep : cross z o.psi = 0 := by rw [hcr o.psi z, xpe, conjTranspose_zero]
  have hN : (selected p.propselect).length = (selected p.propselect).length / 2 + (selected p.propselect).length / 2 := by rw [c1]; omega
  have hN2 : (selected p.propselect).length / 2 + (L.r - (selected p.propselect).length / 2) = L.r := by rw [c1]; omega
  have hhalf : ∀ i, o.velocities i < 0 ↔ i.val < (selected p.propselect).length / 2 := by
    intro i
    rw [hspec.halves i]
    omega
  refine ⟨hN, hN2, hspec.nonzero, hhalf, hspec.range, hspec.orthogonal, hspec.velocity, hspec.complete, hspec.sorted, hspec.sorted', ?_, ?_, ?_⟩
  · refine ⟨u, hf.fact, hf.uInj, ?_, ?_⟩
    · intro i
      obtain ⟨l1, l2⟩ := (link_iff hf (unit_ne (hμ1 i)) _ _).mpr ⟨hspec.solution i, (hspec.wave i).symm⟩
      refine ⟨l2, ?_, ?_⟩
      · ext x
        exact congrFun l1 (.inl x)
      · ext x
        have := congrFun l1 (.inr x)
        change cexp (-(I * o.momenta i)) * o.psi (.inr x) i = _
        rw [show o.psi (.inr x) i = _ from this]
        exact mul_inv_cancel_left₀ (unit_ne (hμ1 i)) _
    · rw [← fromRows_toRows z] at q1
      obtain ⟨Φ, e1, e2, e3⟩ := (hf.pencil _ _ E 1).mp q1
      rw [Matrix.mul_one] at e2 e3
      refine ⟨Φ, E, t1, dec, ?_, ?_, ?_⟩
      · change (fromCols o.psi.toRows₁ z.toRows₁).toCols₂ * E = _
        rw [toCols₂_fromCols]; exact e1
      · change (fromCols o.psi.toRows₂ z.toRows₂).toCols₂ = _
        rw [toCols₂_fromCols]; exact e2
      · change h * Φ + L.v * ((fromCols o.psi.toRows₂ z.toRows₂).toCols₂ * E) + u * (fromCols o.psi.toRows₁ z.toRows₁).toCols₂ = 0
        rw [toCols₂_fromCols, toCols₂_fromCols]; exact e3
  · change current (fromCols o.psi.toRows₁ z.toRows₁) (fromCols o.psi.toRows₂ z.toRows₂) = _
    rw [current_eq]
    ext a b
    rcases a with a | a <;> rcases b with b | b
    · have : (I • ((fromCols o.psi.toRows₁ z.toRows₁)ᴴ * fromCols o.psi.toRows₂ z.toRows₂ - (fromCols o.psi.toRows₂ z.toRows₂)ᴴ * fromCols o.psi.toRows₁ z.toRows₁))
          (.inl a) (.inl b) = (I • (o.psi.toRows₁ᴴ * o.psi.toRows₂ - o.psi.toRows₂ᴴ * o.psi.toRows₁)) a b := rfl
      rw [this, ← current_eq, hcurr, diagonal_apply, diagonal_apply]
      simp only [Sum.inl.injEq]
      by_cases hab : a = b
      · rw [if_pos hab, if_pos hab, Sum.elim_inl]
        have hn := hspec.nonzero a
        have hN : (selected p.propselect).length = (selected p.propselect).length / 2 + (selected p.propselect).length / 2 := by rw [c1]; omega
        change _ = if a.val < (selected p.propselect).length / 2 then (-1 : ℂ) else 1
        by_cases hv : o.velocities a < 0
        · have := (hspec.halves a).mp hv
          rw [if_pos (by omega), abs_of_neg hv, div_neg, div_self hn]
          norm_num
        · have h6 : ¬ 2 * a.val < (selected p.propselect).length := fun h6 => hv ((hspec.halves a).mpr h6)
          rw [if_neg (by omega), abs_of_nonneg (not_lt.mp hv), div_self hn]
          norm_num
      · rw [if_neg hab, if_neg hab]
    · rw [diagonal_apply_ne _ (by simp)]
      exact congrFun (congrFun xpe a) b
    · rw [diagonal_apply_ne _ (by simp)]
      exact congrFun (congrFun xep a) b
    · have : diagonal (Sum.elim (fun i : Fin (selected p.propselect).length => if i.val < (selected p.propselect).length / 2 then (-1 : ℂ) else 1)
          fun _ : Fin (L.r - (selected p.propselect).length / 2) => 0) (.inr a) (.inr b) = 0 := by
        rw [diagonal_apply]
        split <;> rfl
      refine Eq.trans ?_ this.symm
      exact congrFun (congrFun xee a) b
  · intro c hc1 hc2
    change (fromCols o.psi.toRows₁ z.toRows₁).toCols₂ *ᵥ c = 0 at hc1
    change (fromCols o.psi.toRows₂ z.toRows₂).toCols₂ *ᵥ c = 0 at hc2
    rw [toCols₂_fromCols] at hc1 hc2
    have hzc : z *ᵥ c = 0 := by
      ext i
      rcases i with i | i
      · exact congrFun hc1 i
      · exact congrFun hc2 i
    have := congrArg (zᴴ *ᵥ ·) hzc
    simp only [mulVec_mulVec, u1, one_mulVec, mulVec_zero] at this
    exact this

/-- **C113**: the modes of a block of a Hermitian lead. -/
theorem C113_block (e : BlockNum n) {h hop : Matrix (Fin n) (Fin n) ℂ} (he : e.Ok hop) (hh : h.IsHermitian) (hc : CutExact e.lin hop) (hb : NoBandEdge h hop)
    (hfl : NoFlatBand h hop) {stab : Option (Option Bool × Bool)} (hst : ∀ s0, stab = some (s0, true) → NoInfinite h hop)
    (hsep : ∀ L, setupLinsys e.lin h hop stab = .ok L → WellSeparated e L) (junk : (N : ℕ) → Fin N → ℝ) {m : BlockModes n}
    (hm : computeBlockModes e ⟨none, none, none⟩ junk h hop stab = .ok m) : BlockSpec h hop m :=
  C113_block_of e he hh hc hb hfl hst hsep junk (fun _ hL _ _ _ junk hin hsp _ ho => C109_modes e.lin he.lin hL hc hst e.mode he.mode hin hsp junk ho) hm

end Kwant.Leads
