import Verif.Leads.LeadSelf
import Verif.Leads.ModesEx

/-!
C115: consequences of the specification of the self-energy, and examples.
-/

set_option linter.unusedSectionVars false

namespace Kwant.Leads
open Matrix Complex Filter

variable {n m : ℕ} {h : Matrix (Fin n) (Fin n) ℂ} {hhop : Matrix (Fin n) (Fin m) ℂ} {Sig : Matrix (Fin m) (Fin m) ℂ}

/-- The specification determines the self-energy. -/
theorem C115_unique {Sig' : Matrix (Fin m) (Fin m) ℂ} (h1 : IsSelfenergy h hhop Sig) (h2 : IsSelfenergy h hhop Sig') : Sig = Sig' := by
  have : ∀ φ, Sig *ᵥ φ = Sig' *ᵥ φ := by
    intro φ
    obtain ⟨Ψ, a1, a2, a3, a4⟩ := h1 φ
    obtain ⟨Ψ', b1, b2, b3, b4⟩ := h2 φ
    rw [a4, b4, a3 Ψ' b1 b2]
  ext i j
  have h3 := congrFun (this (Pi.single j 1)) i
  simpa using h3

/-- If there is a surface state, there is no self-energy: the hypothesis of C115 is necessary. -/
theorem C115_necessary (hs : IsSelfenergy h hhop Sig) : NoSurfaceState h hhop := by
  intro Ψ h1 h2 j
  obtain ⟨Ψ', _, _, h3, _⟩ := hs 0
  have out : ∀ Ψ : ℕ → Fin n → ℂ, Tendsto Ψ atTop (nhds 0) → OutgoingWave h (padHop hhop) Ψ := by
    intro Ψ hΨ
    refine ⟨0, Fin.elim0, Fin.elim0, fun i => Fin.elim0 i, fun i => Fin.elim0 i, ?_⟩
    simpa using hΨ
  have e1 := h3 Ψ h1 (out Ψ h2)
  have e2 := h3 (fun _ => 0) ⟨by simp, by simp⟩ (out _ tendsto_const_nhds)
  rw [e1, ← e2]

/-- The self-energy as a matrix for all orbitals of the cell. -/
def padSelf (S : Matrix (Fin m) (Fin m) ℂ) : Matrix (Fin n) (Fin n) ℂ := of fun i j => if h : i.val < m ∧ j.val < m then S ⟨i.val, h.1⟩ ⟨j.val, h.2⟩ else 0

/-- The self-energy solves the Dyson equation: adding a cell to the lead does not change it. -/
theorem C115_dyson (hs : IsSelfenergy h hhop Sig) (hmn : m ≤ n) : ∃ Φ : Matrix (Fin n) (Fin m) ℂ, (-h - padSelf Sig) * Φ = hhop ∧ Sig = hhopᴴ * Φ := by
  choose Ψ h1 h2 h3 h4 using hs
  have hpad : ∀ x : Fin n → ℂ, padHop hhop *ᵥ x = hhop *ᵥ (x ∘ Fin.castLE hmn) := by
    intro x
    ext i
    rw [mulVec, mulVec, dotProduct, dotProduct]
    symm
    refine Finset.sum_of_injOn (Fin.castLE hmn) (fun a _ b _ hab => Fin.castLE_injective hmn hab) (fun _ _ => Finset.mem_coe.mpr (Finset.mem_univ _)) ?_ ?_
    · intro j _ hj
      have : ¬ j.val < m := by
        intro hlt
        exact hj ⟨⟨j.val, hlt⟩, Finset.mem_coe.mpr (Finset.mem_univ _), rfl⟩
      have e : (padHop hhop : Matrix (Fin n) (Fin n) ℂ) i j = 0 := dif_neg this
      rw [e, zero_mul]
    · intro j _
      have e : (padHop hhop : Matrix (Fin n) (Fin n) ℂ) i (Fin.castLE hmn j) = hhop i j := dif_pos j.2
      rw [e]
      rfl
  have hpadH : ∀ x : Fin n → ℂ, (padHop hhop : Matrix (Fin n) (Fin n) ℂ)ᴴ *ᵥ x = fun i => if hi : i.val < m then (hhopᴴ *ᵥ x) ⟨i.val, hi⟩ else 0 := by
    intro x
    ext i
    by_cases hi : i.val < m
    · rw [dif_pos hi, mulVec, mulVec, dotProduct, dotProduct]
      refine Finset.sum_congr rfl fun j _ => ?_
      have e : (padHop hhop : Matrix (Fin n) (Fin n) ℂ) j i = hhop j ⟨i.val, hi⟩ := dif_pos hi
      rw [conjTranspose_apply, conjTranspose_apply, e]
    · rw [dif_neg hi, mulVec, dotProduct]
      refine Finset.sum_eq_zero fun j _ => ?_
      have e : (padHop hhop : Matrix (Fin n) (Fin n) ℂ) j i = 0 := dif_neg hi
      rw [conjTranspose_apply, e, star_zero, zero_mul]
  have hself : ∀ x : Fin n → ℂ, (padSelf Sig : Matrix (Fin n) (Fin n) ℂ) *ᵥ x = fun i => if hi : i.val < m then (Sig *ᵥ (x ∘ Fin.castLE hmn)) ⟨i.val, hi⟩ else 0 := by
    intro x
    ext i
    by_cases hi : i.val < m
    · rw [dif_pos hi, mulVec, mulVec, dotProduct, dotProduct]
      symm
      refine Finset.sum_of_injOn (Fin.castLE hmn) (fun a _ b _ hab => Fin.castLE_injective hmn hab) (fun _ _ => Finset.mem_coe.mpr (Finset.mem_univ _)) ?_ ?_
      · intro j _ hj
        have : ¬ j.val < m := by
          intro hlt
          exact hj ⟨⟨j.val, hlt⟩, Finset.mem_coe.mpr (Finset.mem_univ _), rfl⟩
        have e : (padSelf Sig : Matrix (Fin n) (Fin n) ℂ) i j = 0 := dif_neg fun hc => this hc.2
        rw [e, zero_mul]
      · intro j _
        have e : (padSelf Sig : Matrix (Fin n) (Fin n) ℂ) i (Fin.castLE hmn j) = Sig ⟨i.val, hi⟩ j := dif_pos ⟨hi, j.2⟩
        rw [e]
        rfl
    · rw [dif_neg hi, mulVec, dotProduct]
      refine Finset.sum_eq_zero fun j _ => ?_
      have e : (padSelf Sig : Matrix (Fin n) (Fin n) ℂ) i j = 0 := dif_neg fun hc => hi hc.1
      rw [e, zero_mul]
  have key : ∀ φ, (-h - padSelf Sig) *ᵥ Ψ φ 0 = hhop *ᵥ φ := by
    intro φ
    have hshift : LeadSolution h hhop (Ψ φ 0 ∘ Fin.castLE hmn) (fun j => Ψ φ (j + 1)) := by
      refine ⟨?_, fun j => (h1 φ).bulk (j + 1)⟩
      have := (h1 φ).bulk 0
      rw [hpad] at this
      exact this
    have hout : OutgoingWave h (padHop hhop) (fun j => Ψ φ (j + 1)) := by
      obtain ⟨N, k, w, ψ, g1, g2⟩ := h2 φ
      refine ⟨N, k, w, fun i => cexp (I * k i) • ψ i, fun i => ⟨(g1 i).1, ?_, ?_⟩, ?_⟩
      · have := (g1 i).2.1
        rw [isBloch_iff _ _ (Complex.exp_ne_zero _)] at this ⊢
        rw [mulVec_smul h, mulVec_smul (padHop hhop : Matrix (Fin n) (Fin n) ℂ), mulVec_smul (padHop hhop : Matrix (Fin n) (Fin n) ℂ)ᴴ, smul_comm _ (cexp (I * k i)),
          smul_comm _ (cexp (I * k i)), ← smul_add, ← smul_add, this, smul_zero]
      · intro χ hχ
        have := (g1 i).2.2 χ hχ
        rw [mulVec_smul, dotProduct_smul, dotProduct_smul, this, smul_eq_mul, smul_eq_mul]
        ring
      · refine ((tendsto_add_atTop_iff_nat 1).mpr g2).congr fun j => ?_
        congr 1
        refine Finset.sum_congr rfl fun i _ => ?_
        rw [smul_smul, ← Complex.exp_add]
        congr 2
        push_cast
        ring
    have e1 := h3 _ _ hshift hout
    have e2 := h4 (Ψ φ 0 ∘ Fin.castLE hmn)
    rw [← e1] at e2
    rw [sub_mulVec, neg_mulVec, hself, e2, ← hpadH, ← sub_eq_zero, ← neg_eq_zero, ← (h1 φ).first]
    abel
  refine ⟨of fun x i => Ψ (Pi.single i 1) 0 x, ?_, ?_⟩
  · ext x i
    have := congrFun (key (Pi.single i 1)) x
    rw [mulVec_single_one] at this
    exact this
  · ext x i
    have := congrFun (h4 (Pi.single i 1)) x
    rw [mulVec_single_one] at this
    exact this

/-! ### Examples -/

/-- A function with the contract of `la.solve`. -/
theorem solve_exists {k l m : Type} [Fintype k] [Fintype l] [DecidableEq k] [DecidableEq l] : ∃ s : Solve k l m, SolveOk s := by
  classical
  refine ⟨fun x b => if h : ∃ xi : Matrix l k ℂ, x * xi = 1 ∧ xi * x = 1 then h.choose * b else 0, ?_⟩
  intro x xi b h1 h2
  have h : ∃ xi : Matrix l k ℂ, x * xi = 1 ∧ xi * x = 1 := ⟨xi, h1, h2⟩
  change (if h : ∃ xi : Matrix l k ℂ, x * xi = 1 ∧ xi * x = 1 then h.choose * b else 0) = xi * b
  rw [dif_pos h]
  have h3 := h.choose_spec
  congr 1
  calc h.choose = h.choose * (x * xi) := by rw [h1, Matrix.mul_one]
    _ = xi := by rw [← Matrix.mul_assoc, h3.2, Matrix.one_mul]

theorem trSurface : NoSurfaceState 0 trHop := by
  intro Ψ hs hd
  have hH : trHopᴴ = -trHop := by
    ext i j
    fin_cases i <;> fin_cases j <;> simp [trHop]
  have hinj : ∀ x, trHop *ᵥ x = 0 → x = 0 := by
    intro x hx
    ext i
    have := congrFun hx i
    rw [trHop, mulVec_diagonal] at this
    fin_cases i <;> simpa using this
  have h1 : Ψ 1 = 0 := by
    have := hs.first
    rw [trPad, hH] at this
    simp only [zero_mulVec, neg_mulVec, mulVec_zero, zero_add, add_zero, neg_eq_zero] at this
    exact hinj _ this
  have h2 : ∀ j, Ψ (j + 2) = Ψ j := by
    intro j
    have := hs.bulk j
    rw [trPad, hH] at this
    simp only [zero_mulVec, neg_mulVec, zero_add] at this
    rw [neg_add_eq_zero] at this
    refine sub_eq_zero.mp (hinj _ ?_)
    rw [mulVec_sub, this, sub_self]
  have h3 : ∀ j t, Ψ (j + 2 * t) = Ψ j := by
    intro j t
    induction t with
    | zero => rfl
    | succ t ih => rw [show j + 2 * (t + 1) = (j + 2 * t) + 2 by omega, h2, ih]
  intro j
  have h4 : Tendsto (fun t : ℕ => Ψ (j + 2 * t)) atTop (nhds 0) := by
    refine hd.comp (tendsto_atTop_mono (fun t => ?_) tendsto_id)
    simp only [id]
    omega
  refine tendsto_nhds_unique ?_ h4
  simp only [h3]
  exact tendsto_const_nhds

/-- C115: an example that meets all hypotheses. -/
theorem C115_example : ∃ (M : LeadModes 2 2) (Sig : Matrix (Fin 2) (Fin 2) ℂ), modes exM (some trProj) trSym 0 trHop = .ok M ∧
    (∃ solve, SolveOk solve ∧ Sig = selfenergy solve M.stab) ∧ IsSelfenergy 0 trHop Sig ∧ Sig ≠ 0 := by
  obtain ⟨M, hM, hs, _⟩ := C114_example
  obtain ⟨solve, hsv⟩ := solve_exists (k := Fin M.r) (l := Fin M.p ⊕ Fin M.q) (m := Fin 2)
  have ho : LeadOk exM ((some trProj).getD (Projectors.default 2)) trSym 0 (padHop trHop) := by
    rw [trPad]
    exact trOk
  have h1 := (C115_modes ho hM trSurface hsv).1
  refine ⟨M, _, hM, ⟨solve, hsv, rfl⟩, h1, ?_⟩
  intro h0
  obtain ⟨Φ, h2, h3⟩ := C115_dyson h1 le_rfl
  rw [h0] at h2
  have h4 : (padSelf (0 : Matrix (Fin 2) (Fin 2) ℂ) : Matrix (Fin 2) (Fin 2) ℂ) = 0 := by
    ext i j
    simp [padSelf]
  rw [h4, neg_zero, sub_zero, Matrix.zero_mul] at h2
  have := congrFun (congrFun h2 0) 0
  simp [trHop] at this
  exact I_ne_zero this.symm

end Kwant.Leads
