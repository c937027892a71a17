import Verif.Leads.Clusters
import Mathlib.Analysis.SpecialFunctions.ExpDeriv
import Mathlib.LinearAlgebra.Matrix.Rank
import Mathlib.LinearAlgebra.Dimension.Constructions

/-!
C109: the propagating modes that `make_proper_modes` (kwant/physics/leads.py l.611-876) returns if no discrete symmetry is given: Bloch wave functions that are
orthogonal at equal momentum, diagonalize the velocity operator, carry unit current, form a basis of all Bloch solutions, and are sorted.
-/

set_option linter.unusedSectionVars false

namespace Kwant.Leads
open Matrix Complex

variable {n r : ℕ}

/-! ### Specification -/

/-- The Bloch Hamiltonian of the lead. -/
noncomputable def blochH (h hop : Matrix (Fin n) (Fin n) ℂ) (k : ℝ) : Matrix (Fin n) (Fin n) ℂ := h + cexp (-(I * k)) • hop + cexp (I * k) • hopᴴ

/-- The velocity operator at momentum `k`. -/
noncomputable def velK (hop : Matrix (Fin n) (Fin n) ℂ) (k : ℝ) : Matrix (Fin n) (Fin n) ℂ := (-I * cexp (-(I * k))) • hop + ((-I * cexp (-(I * k))) • hop)ᴴ

/-- What the eigenvalue solver provides: for every eigenvalue on the unit circle a basis of the space of solutions. -/
structure PropInput (L : Linsys n) {N : ℕ} (lam : Fin N → ℂ) (psi : Matrix (Fin L.r ⊕ Fin L.r) (Fin N) ℂ) : Prop where
  unit : ∀ i, ‖lam i‖ = 1
  solution : ∀ i, L.Solution (lam i) (psi.col i)
  indep : ∀ (μ : ℂ) (c : Fin N → ℂ), (∀ i, lam i ≠ μ → c i = 0) → psi *ᵥ c = 0 → c = 0
  complete : ∀ (μ : ℂ) x, ‖μ‖ = 1 → L.Solution μ x → ∃ c : Fin N → ℂ, (∀ i, lam i ≠ μ → c i = 0) ∧ x = psi *ᵥ c

/-- What is promised about the propagating modes. -/
structure ProperSpec (h hop : Matrix (Fin n) (Fin n) ℂ) (L : Linsys n) {N : ℕ} (o : Proper n L.r N) : Prop where
  range : ∀ i, -Real.pi ≤ o.momenta i ∧ o.momenta i < Real.pi
  solution : ∀ i, L.Solution (cexp (-(I * o.momenta i))) (o.psi.col i)
  wave : ∀ i, o.waveFunctions.col i = L.extract1 (cexp (-(I * o.momenta i))) (o.psi.col i)
  bloch : ∀ i, IsBloch h hop (cexp (-(I * o.momenta i))) (o.waveFunctions.col i)
  nonzero : ∀ i, o.velocities i ≠ 0
  orthogonal : ∀ i j, o.momenta i = o.momenta j → star (o.waveFunctions.col i) ⬝ᵥ o.waveFunctions.col j = if i = j then ((1 / |o.velocities i| : ℝ) : ℂ) else 0
  velocity : ∀ i j, o.momenta i = o.momenta j → star (o.waveFunctions.col i) ⬝ᵥ (velK hop (o.momenta i) *ᵥ o.waveFunctions.col j) =
    if i = j then ((o.velocities i / |o.velocities i| : ℝ) : ℂ) else 0
  complete : ∀ (k : ℝ) (ψ : Fin n → ℂ), IsBloch h hop (cexp (-(I * k))) ψ → ∃ c : Fin N → ℂ,
    (∀ i, cexp (-(I * o.momenta i)) ≠ cexp (-(I * k)) → c i = 0) ∧ ψ = o.waveFunctions *ᵥ c
  halves : ∀ i, o.velocities i < 0 ↔ 2 * i.val < N
  sorted : ∀ i j, i < j → o.velocities i < 0 → o.velocities j < 0 → o.momenta i < o.momenta j ∨ (o.momenta i = o.momenta j ∧ o.velocities i ≤ o.velocities j)
  sorted' : ∀ i j, i < j → 0 < o.velocities i → 0 < o.velocities j → o.momenta j < o.momenta i ∨ (o.momenta i = o.momenta j ∧ o.velocities i ≤ o.velocities j)

/-- The velocity operator is the derivative of the Bloch Hamiltonian. -/
theorem velK_deriv (h hop : Matrix (Fin n) (Fin n) ℂ) (k : ℝ) (i j : Fin n) : HasDerivAt (fun k : ℝ => blochH h hop k i j) (velK hop k i j) k := by
  have e1 : HasDerivAt (fun k : ℝ => cexp (-(I * k))) (cexp (-(I * k)) * (-(I * 1))) k := by
    have : HasDerivAt (fun k : ℝ => -(I * (k : ℂ))) (-(I * 1)) k := ((Complex.ofRealCLM.hasDerivAt (x := k)).const_mul I).neg
    exact this.cexp
  have e2 : HasDerivAt (fun k : ℝ => cexp (I * k)) (cexp (I * k) * (I * 1)) k := by
    have : HasDerivAt (fun k : ℝ => I * (k : ℂ)) (I * 1) k := (Complex.ofRealCLM.hasDerivAt (x := k)).const_mul I
    exact this.cexp
  have := ((e1.mul_const (hop i j)).add (e2.mul_const (hopᴴ i j))).const_add (h i j)
  refine (this.congr_deriv ?_).congr_of_eventuallyEq (Filter.Eventually.of_forall fun k => ?_)
  · have hc : (starRingEnd ℂ) (cexp (-(I * k))) = cexp (I * k) := by
      rw [← Complex.exp_conj]
      congr 1
      simp
    simp only [velK, Matrix.add_apply, Matrix.smul_apply, conjTranspose_apply, smul_eq_mul, star_def, map_mul, map_neg, conj_I, hc]
    ring
  · simp only [blochH, Matrix.add_apply, Matrix.smul_apply, smul_eq_mul, Pi.add_apply]
    ring

/-! ### Assignments with index arrays -/

theorem upd_sel {α : Type} {N k : ℕ} {sel : Fin k → Fin N} (hs : Function.Injective sel) (a : Fin N → α) (b : Fin k → α) (i : Fin k) : upd sel a b (sel i) = b i := by
  have h : ∃ j, sel j = sel i := ⟨i, rfl⟩
  rw [upd, dif_pos h]
  exact congrArg b (hs h.choose_spec)

theorem upd_not {α : Type} {N k : ℕ} {sel : Fin k → Fin N} (a : Fin N → α) (b : Fin k → α) {j : Fin N} (hj : ∀ i, sel i ≠ j) : upd sel a b j = a j := by
  rw [upd, dif_neg]
  rintro ⟨i, hi⟩
  exact hj i hi

theorem updCols_sel {R : Type} {N k : ℕ} {sel : Fin k → Fin N} (hs : Function.Injective sel) (a : Matrix R (Fin N) ℂ) (b : Matrix R (Fin k) ℂ) (x : R) (i : Fin k) :
    updCols sel a b x (sel i) = b x i := upd_sel hs (fun j => a x j) (fun j => b x j) i

theorem updCols_not {R : Type} {N k : ℕ} {sel : Fin k → Fin N} (a : Matrix R (Fin N) ℂ) (b : Matrix R (Fin k) ℂ) (x : R) {j : Fin N} (hj : ∀ i, sel i ≠ j) :
    updCols sel a b x j = a x j := upd_not (fun j => a x j) (fun j => b x j) hj

theorem take_put {N k : ℕ} {sel : Fin k → Fin N} (hs : Function.Injective sel) (m : Modes n r N) (o : Modes n r k) : (m.put sel o).take sel = o := by
  obtain ⟨o1, o2, o3, o4, o5⟩ := o
  simp only [Modes.take, Modes.put, Modes.mk.injEq]
  refine ⟨?_, ?_, ?_, ?_, ?_⟩
  · ext x i; exact updCols_sel hs _ _ x i
  · ext x i; exact updCols_sel hs _ _ x i
  · ext i; exact upd_sel hs _ _ i
  · ext i; exact upd_sel hs _ _ i
  · ext i; exact upd_sel hs _ _ i

theorem take_put_disjoint {N k l : ℕ} {sel : Fin k → Fin N} {sel' : Fin l → Fin N} (hd : ∀ i j, sel i ≠ sel' j) (m : Modes n r N) (o : Modes n r k) :
    (m.put sel o).take sel' = m.take sel' := by
  simp only [Modes.take, Modes.put, Modes.mk.injEq]
  refine ⟨?_, ?_, ?_, ?_, ?_⟩
  · ext x i; exact updCols_not _ _ x fun j => hd j i
  · ext x i; exact updCols_not _ _ x fun j => hd j i
  · ext i; exact upd_not _ _ fun j => hd j i
  · ext i; exact upd_not _ _ fun j => hd j i
  · ext i; exact upd_not _ _ fun j => hd j i

/-- The loop treats every cluster independently. -/
theorem runClusters_spec (e : ModeNum n) (sy : Symm n) {N : ℕ} : ∀ (cs : List (List (Fin N))) (m m' : Modes n r N), cs.flatten.Nodup →
    runClusters e sy cs m = .ok m' → (∀ c ∈ cs, clusterStep e sy (m.take c.get) = .ok (m'.take c.get)) ∧
      ∀ {k : ℕ} (sel : Fin k → Fin N), (∀ i, sel i ∉ cs.flatten) → m'.take sel = m.take sel
  | [], m, m', _, h => by
    cases h
    exact ⟨fun c hc => absurd hc List.not_mem_nil, fun _ _ => rfl⟩
  | c :: cs, m, m', hn, h => by
    rw [List.flatten_cons, List.nodup_append] at hn
    obtain ⟨hn1, hn2, hn3⟩ := hn
    have hinj : Function.Injective c.get := List.nodup_iff_injective_get.mp hn1
    rw [runClusters] at h
    split at h
    · cases h
    rename_i o ho
    obtain ⟨i1, i2⟩ := runClusters_spec e sy cs _ m' hn2 h
    have hdis : ∀ c' ∈ cs, ∀ i j, c.get i ≠ c'.get j := fun c' hc' i j =>
      hn3 _ (List.get_mem c i) _ (List.mem_flatten.mpr ⟨c', hc', List.get_mem c' j⟩)
    constructor
    · intro c' hc'
      rcases List.mem_cons.mp hc' with rfl | hc'
      · rw [ho]
        congr 1
        rw [i2 c'.get fun i hi => hn3 _ (List.get_mem c' i) _ hi rfl, take_put hinj]
      · rw [← i1 c' hc', take_put_disjoint (hdis c' hc')]
    · intro k sel hsel
      rw [i2 sel fun i hi => hsel i (by rw [List.flatten_cons, List.mem_append]; exact .inr hi), take_put_disjoint]
      intro i j hij
      exact hsel j (by rw [List.flatten_cons, List.mem_append, ← hij]; exact .inl (List.get_mem c i))

theorem runClusters_none (e : ModeNum n) {N : ℕ} : ∀ (cs : List (List (Fin N))) (m : Modes n r N), ∃ m', runClusters e ⟨none, none, none⟩ cs m = .ok m'
  | [], m => ⟨m, rfl⟩
  | c :: cs, m => by
    obtain ⟨m', hm'⟩ := runClusters_none e cs (m.put c.get (rotStep e (orthStep e (m.take c.get))))
    exact ⟨m', hm'⟩

/-! ### One cluster -/

section cluster
variable (h hop : Matrix (Fin n) (Fin n) ℂ) (u v : Matrix (Fin n) (Fin r) ℂ)

/-- The vector `x` in the basis of the eigenproblem belongs to the Bloch wave function `ψ`. -/
def Link (μ : ℂ) (x : Fin r ⊕ Fin r → ℂ) (ψ : Fin n → ℂ) : Prop := x = Sum.elim (vᴴ *ᵥ ψ) (μ⁻¹ • (uᴴ *ᵥ ψ)) ∧ IsBloch h hop μ ψ

/-- The velocity operator for `μ = exp(-i k)`. -/
noncomputable def velMu (μ : ℂ) : Matrix (Fin n) (Fin n) ℂ := (-I * μ) • hop + ((-I * μ) • hop)ᴴ

variable {h hop u v}

theorem Link.mul {k l : ℕ} {μ : ℂ} (hμ : μ ≠ 0) {psi : Matrix (Fin r ⊕ Fin r) (Fin k) ℂ} {full : Matrix (Fin n) (Fin k) ℂ}
    (hl : ∀ i, Link h hop u v μ (psi.col i) (full.col i)) (R : Matrix (Fin k) (Fin l) ℂ) (i : Fin l) : Link h hop u v μ ((psi * R).col i) ((full * R).col i) := by
  have c1 : (psi * R).col i = psi *ᵥ R.col i := by ext x; rfl
  have c2 : (full * R).col i = full *ᵥ R.col i := by ext x; rfl
  have e1 : ∀ {m : ℕ} (a : Matrix (Fin n) (Fin m) ℂ), aᴴ *ᵥ (full *ᵥ R.col i) = ∑ j, R j i • (aᴴ *ᵥ full.col j) := by
    intro m a
    have : full *ᵥ R.col i = ∑ j, R j i • full.col j := by
      ext x
      simp [mulVec, dotProduct, mul_comm]
    rw [this, mulVec_sum]
    simp only [mulVec_smul]
  constructor
  · rw [c1, c2, e1 v, e1 u]
    ext x
    have : (psi *ᵥ R.col i) x = ∑ j, R j i * psi x j := by simp [mulVec, dotProduct, mul_comm]
    rw [this]
    have hp : ∀ j, psi x j = Sum.elim (vᴴ *ᵥ full.col j) (μ⁻¹ • (uᴴ *ᵥ full.col j)) x := fun j => congrFun (hl j).1 x
    simp only [hp]
    rcases x with x | x
    · simp
    · simp only [Sum.elim_inr, Pi.smul_apply, Finset.sum_apply, smul_eq_mul, Finset.mul_sum]
      refine Finset.sum_congr rfl fun j _ => ?_
      ring
  · have hb := fun j => (isBloch_iff h hop hμ _).mp (hl j).2
    rw [isBloch_iff h hop hμ, c2]
    have e2 : ∀ a : Matrix (Fin n) (Fin n) ℂ, a *ᵥ (full *ᵥ R.col i) = ∑ j, R j i • (a *ᵥ full.col j) := by
      intro a
      have := e1 aᴴ
      rwa [conjTranspose_conjTranspose] at this
    rw [e2, e2, e2, Finset.smul_sum, Finset.smul_sum, ← Finset.sum_add_distrib, ← Finset.sum_add_distrib]
    refine Finset.sum_eq_zero fun j _ => ?_
    rw [smul_comm μ, smul_comm μ⁻¹, ← smul_add, ← smul_add, hb j, smul_zero]

theorem conj_inv_unit {μ : ℂ} (hμ : ‖μ‖ = 1) : (starRingEnd ℂ) μ⁻¹ = μ := by
  rw [map_inv₀, Complex.inv_def, Complex.conj_conj, Complex.normSq_conj, Complex.normSq_eq_norm_sq, hμ]
  simp

theorem velOpMat_eq {k : ℕ} {μ : ℂ} (hμ : ‖μ‖ = 1) (hf : hop = u * vᴴ) {psi : Matrix (Fin r ⊕ Fin r) (Fin k) ℂ} {full : Matrix (Fin n) (Fin k) ℂ}
    (hl : ∀ i, Link h hop u v μ (psi.col i) (full.col i)) : velOpMat psi = fullᴴ * velMu hop μ * full := by
  have h1 : psi.toRows₁ = vᴴ * full := by
    ext x i
    exact congrFun (hl i).1 (.inl x)
  have h2 : psi.toRows₂ = μ⁻¹ • (uᴴ * full) := by
    ext x i
    exact congrFun (hl i).1 (.inr x)
  have h3 : (-I) • (psi.toRows₂ᴴ * psi.toRows₁) = fullᴴ * ((-I * μ) • hop) * full := by
    rw [h1, h2, conjTranspose_smul, conjTranspose_mul, conjTranspose_conjTranspose, star_def, conj_inv_unit hμ, hf]
    simp only [Matrix.smul_mul, Matrix.mul_smul, smul_smul, Matrix.mul_assoc]
  rw [velOpMat, h3, velMu, Matrix.mul_add, Matrix.add_mul]
  congr 1
  simp only [conjTranspose_mul, conjTranspose_conjTranspose, Matrix.mul_assoc]

theorem velMu_herm (μ : ℂ) : (velMu hop μ)ᴴ = velMu hop μ := by
  rw [velMu, conjTranspose_add, conjTranspose_conjTranspose, add_comm]

/-- The properties of the modes of one cluster, after the loop body. -/
structure ClusterGood (h hop : Matrix (Fin n) (Fin n) ℂ) (u v : Matrix (Fin n) (Fin r) ℂ) (μ : ℂ) {k : ℕ} (m : Modes n r k) : Prop where
  link : ∀ i, Link h hop u v μ (m.psi.col i) (m.full.col i)
  orth : m.fullᴴ * m.full = 1
  diag : m.fullᴴ * velMu hop μ * m.full = diagonal fun i => (m.vel i : ℂ)

theorem le_of_inj {k : ℕ} {a : Matrix (Fin n) (Fin k) ℂ} (ha : ∀ c, a *ᵥ c = 0 → c = 0) : k ≤ n := by
  have : Function.Injective a.mulVecLin := by
    rw [← LinearMap.ker_eq_bot, LinearMap.ker_eq_bot']
    intro c hc
    exact ha c hc
  have := LinearMap.finrank_le_finrank_of_injective this
  simpa using this

theorem isUnit_of_inj {k : ℕ} {a : Matrix (Fin k) (Fin k) ℂ} (ha : ∀ c, a *ᵥ c = 0 → c = 0) : IsUnit a.det := by
  rw [isUnit_iff_ne_zero]
  intro h0
  obtain ⟨c, hc, hc0⟩ := Matrix.exists_mulVec_eq_zero_iff.mpr h0
  exact hc (ha c hc0)

theorem clusterStep_none (e : ModeNum n) (he : e.Ok) {μ : ℂ} (hμ : ‖μ‖ = 1) (hf : hop = u * vᴴ) {k : ℕ} {m m' : Modes n r k}
    (hl : ∀ i, Link h hop u v μ (m.psi.col i) (m.full.col i)) (hi : ∀ c, m.full *ᵥ c = 0 → c = 0)
    (hm : clusterStep e ⟨none, none, none⟩ m = .ok m') :
    ClusterGood h hop u v μ m' ∧ m'.lam = m.lam ∧ m'.trim = m.trim ∧ Monotone m'.vel ∧ ∃ R : Matrix (Fin k) (Fin k) ℂ, m.full = m'.full * R := by
  have hm' : rotStep e (orthStep e m) = m' := by
    have : clusterStep e ⟨none, none, none⟩ m = .ok (rotStep e (orthStep e m)) := rfl
    rw [this] at hm
    exact Except.ok.inj hm
  have hμ0 : μ ≠ 0 := by
    intro h0
    rw [h0, norm_zero] at hμ
    exact zero_ne_one hμ
  obtain ⟨q1, q2⟩ := he.qr m.full (le_of_inj hi)
  have hr : IsUnit (e.qr m.full).2.det := by
    refine isUnit_of_inj fun c hc => hi c ?_
    rw [← q1, ← mulVec_mulVec, hc, mulVec_zero]
  have hq : (e.qr m.full).1 = m.full * (e.qr m.full).2⁻¹ := by
    calc (e.qr m.full).1 = (e.qr m.full).1 * ((e.qr m.full).2 * (e.qr m.full).2⁻¹) := by rw [Matrix.mul_nonsing_inv _ hr, Matrix.mul_one]
      _ = _ := by rw [← Matrix.mul_assoc, q1]
  have hpsi : (orthStep e m).psi = m.psi * (e.qr m.full).2⁻¹ := he.solveRight _ _ hr
  have hl1 : ∀ i, Link h hop u v μ ((orthStep e m).psi.col i) ((orthStep e m).full.col i) := by
    intro i
    have : (orthStep e m).full = m.full * (e.qr m.full).2⁻¹ := hq
    rw [hpsi, this]
    exact Link.mul hμ0 hl _ i
  have hv := velOpMat_eq hμ hf hl1
  have hvh : (velOpMat (orthStep e m).psi)ᴴ = velOpMat (orthStep e m).psi := by
    rw [hv, conjTranspose_mul, conjTranspose_mul, velMu_herm, conjTranspose_conjTranspose, Matrix.mul_assoc]
  obtain ⟨g1, g2, g3⟩ := he.eigh _ hvh
  set rot := (e.eigh (velOpMat (orthStep e m).psi)).2
  have g4 : rot * rotᴴ = 1 := mul_eq_one_comm.mp g2
  have ho : (orthStep e m).fullᴴ * (orthStep e m).full = 1 := q2
  subst hm'
  have hfull : (rotStep e (orthStep e m)).full = (orthStep e m).full * rot := rfl
  refine ⟨⟨?_, ?_, ?_⟩, rfl, rfl, g3, ?_⟩
  · exact Link.mul hμ0 hl1 rot
  · rw [hfull, conjTranspose_mul, Matrix.mul_assoc, ← Matrix.mul_assoc _ _ rot, ho, Matrix.one_mul, g2]
  · rw [hfull, conjTranspose_mul]
    calc rotᴴ * (orthStep e m).fullᴴ * velMu hop μ * ((orthStep e m).full * rot)
        = rotᴴ * ((orthStep e m).fullᴴ * velMu hop μ * (orthStep e m).full) * rot := by simp only [Matrix.mul_assoc]
      _ = rotᴴ * (rot * diagonal (fun i => ((e.eigh (velOpMat (orthStep e m).psi)).1 i : ℂ)) * rotᴴ) * rot := by rw [← hv, ← g1]
      _ = (rotᴴ * rot) * diagonal (fun i => ((e.eigh (velOpMat (orthStep e m).psi)).1 i : ℂ)) * (rotᴴ * rot) := by simp only [Matrix.mul_assoc]
      _ = _ := by rw [g2, Matrix.one_mul, Matrix.mul_one]; rfl
  · refine ⟨rotᴴ * (e.qr m.full).2, ?_⟩
    rw [hfull, Matrix.mul_assoc, ← Matrix.mul_assoc rot, g4, Matrix.one_mul]
    exact q1.symm

end cluster

end Kwant.Leads
