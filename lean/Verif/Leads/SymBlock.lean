import Verif.Leads.ModesMain
import Verif.Leads.PartHoleOrder
import Verif.Leads.Chiral

/-!
C113, C114: the modes of a block that discrete symmetries map to itself.
-/

set_option linter.unusedSectionVars false

namespace Kwant.Leads
open Matrix Complex Filter

variable {n : ℕ}

/-! ### Hypotheses -/

/-- Momenta close to `0` or `π` are `0` or `π`. -/
def TrimGap (δ : ℝ) (h hop : Matrix (Fin n) (Fin n) ℂ) : Prop :=
  ∀ μ ψ, ‖μ‖ = 1 → IsBloch h hop μ ψ → ψ ≠ 0 → μ = 1 ∨ μ = -1 ∨ |μ.re| ≤ 1 - δ

/-- The symmetries `sy` of a block are such that `make_proper_modes` does what it promises (C156-C159; the conditions about the velocities and the momentum `π` are
necessary). -/
structure Benign (e : ModeNum n) (sy : Symm n) (h hop : Matrix (Fin n) (Fin n) ℂ) : Prop where
  tr : sy.tr ≠ none → OneSpeed h hop ∧ NotMixedPi h hop
  chiral : sy.chiral ≠ none → sy.tr = none → sy.ph = none ∧ OneSpeed h hop
  ph : sy.ph ≠ none → OneSpeedAway h hop ∧ PiAlone h hop ∧ SpeedGap e.velEps h hop ∧ e.PhsOk ∧ e.eps ≤ 1 ∧ TrimGap e.eps h hop

theorem Benign.none (e : ModeNum n) (h hop : Matrix (Fin n) (Fin n) ℂ) : Benign e ⟨.none, .none, .none⟩ h hop :=
  ⟨fun h => absurd rfl h, fun h => absurd rfl h, fun h => absurd rfl h⟩

/-! ### Proofs -/

theorem trimSep_of_gap {h hop : Matrix (Fin n) (Fin n) ℂ} {L : Linsys n} {u : Matrix (Fin n) (Fin L.r) ℂ} (hf : Faithful h hop L u) {e : ModeNum n} (hg : TrimGap e.eps h hop)
    {N : ℕ} {lam : Fin N → ℂ} {psi : Matrix (Fin L.r ⊕ Fin L.r) (Fin N) ℂ} (hi : PropInput L lam psi) : TrimSep e lam := by
  intro i
  have hne : lam i ≠ 0 := by
    intro h0
    have := hi.unit i
    rw [h0, norm_zero] at this
    exact zero_ne_one this
  obtain ⟨l1, l2⟩ := (link_iff hf hne (psi.col i) _).mpr ⟨hi.solution i, rfl⟩
  refine hg (lam i) _ (hi.unit i) l2 ?_
  intro h0
  rw [h0, mulVec_zero, mulVec_zero, smul_zero] at l1
  have h1 : psi *ᵥ Pi.single i 1 = 0 := by
    rw [mulVec_single_one, l1]
    ext x
    rcases x with x | x <;> rfl
  have h2 := hi.indep (lam i) (Pi.single i 1) (by
    intro j hj
    rw [Pi.single_apply, if_neg]
    intro hji
    exact hj (by rw [hji])) h1
  have h3 := congrFun h2 i
  rw [Pi.single_eq_same] at h3
  exact one_ne_zero h3

/-- What the symmetries of the block promise about its modes (C156-C159). -/
structure SymModes (sy : Symm n) {r N : ℕ} (o : Proper n r N) : Prop where
  tr : ∀ U, sy.tr = some U → TimeReversed U o
  chiral : ∀ U, sy.tr = none → sy.chiral = some U → ChiralPartners U o
  ph : ∀ U, sy.tr = none → sy.ph = some U → ParticleHole U o
  both : ∀ U, sy.tr ≠ none → sy.ph = some U → ParticleHoleIn U o

/-- The symmetries map the block to itself. -/
structure SymRelated (sy : Symm n) (h hop : Matrix (Fin n) (Fin n) ℂ) : Prop where
  tr : ∀ U, sy.tr = some U → Related U true false h hop h hop
  ph : ∀ U, sy.ph = some U → Related U true true h hop h hop
  chiral : ∀ U, sy.chiral = some U → Related U false true h hop h hop

/-- C156-C159 together. -/
theorem proper_of_benign (e : BlockNum n) {h hop : Matrix (Fin n) (Fin n) ℂ} (he : e.Ok hop) (hh : h.IsHermitian) (hc : CutExact e.lin hop)
    {stab : Option (Option Bool × Bool)} (hst : ∀ s0, stab = some (s0, true) → NoInfinite h hop) {sy : Symm n} (hr : SymRelated sy h hop) (hb : Benign e.mode sy h hop) {L : Linsys n}
    (hL : setupLinsys e.lin h hop stab = .ok L) {N : ℕ} {lam : Fin N → ℂ} {psi : Matrix (Fin L.r ⊕ Fin L.r) (Fin N) ℂ} (junk : Fin N → ℝ) (hin : PropInput L lam psi)
    (hsp : Separated e.mode lam) {o : Proper n L.r N} (ho : makeProperModes e.mode sy junk lam psi L.extract = .ok o) : ProperSpec h hop L o ∧ SymModes sy o := by
  obtain ⟨u, hf⟩ := setup_faithful e.lin he.lin hL hc hst
  obtain ⟨tr, ph, ch⟩ := sy
  cases tr with
  | none =>
    cases ph with
    | none =>
      cases ch with
      | none =>
        refine ⟨C109_modes e.lin he.lin hL hc hst e.mode he.mode hin hsp junk ho, ?_, ?_, ?_, ?_⟩
        · intro U hU; cases hU
        · intro U _ hU; cases hU
        · intro U _ hU; cases hU
        · intro U _ hU; cases hU
      | some ch =>
        obtain ⟨_, h1⟩ := hb.chiral (by simp) rfl
        obtain ⟨a1, a2⟩ := C157_modes_partial e.lin he.lin hL hc hst e.mode he.mode hin hsp (hr.chiral ch rfl) h1 junk ho
        refine ⟨a1, ?_, ?_, ?_, ?_⟩
        · intro U hU; cases hU
        · intro U _ hU; cases hU; exact a2
        · intro U _ hU; cases hU
        · intro U _ hU; cases hU
    | some ph =>
      cases ch with
      | none =>
        obtain ⟨h1, h2, h3, h4, h5, h6⟩ := hb.ph (by simp)
        obtain ⟨a1, a2⟩ := C158_modes_partial hh e.lin he.lin hL hc hst e.mode he.mode h4 h5 hin hsp (trimSep_of_gap hf h6 hin) (hr.ph ph rfl) h3 h1 h2 junk ho
        refine ⟨a1, ?_, ?_, ?_, ?_⟩
        · intro U hU; cases hU
        · intro U _ hU; cases hU
        · intro U _ hU; cases hU; exact a2
        · intro U hU; exact absurd rfl hU
      | some ch =>
        have := (hb.chiral (by simp) rfl).1
        cases this
  | some tr =>
    obtain ⟨h1, h2⟩ := hb.tr (by simp)
    cases ph with
    | none =>
      obtain ⟨a1, a2⟩ := C156_modes_partial hh e.lin he.lin hL hc hst e.mode he.mode hin hsp (hr.tr tr rfl) ch h1 h2 junk ho
      refine ⟨a1, ?_, ?_, ?_, ?_⟩
      · intro U hU; cases hU; exact a2
      · intro U hU; cases hU
      · intro U hU; cases hU
      · intro U _ hU; cases hU
    | some ph =>
      obtain ⟨_, _, h3, h4, h5, h6⟩ := hb.ph (by simp)
      obtain ⟨a1, a2, a3, _⟩ := C159_modes_partial hh e.lin he.lin hL hc hst e.mode he.mode h4 h5 hin hsp (trimSep_of_gap hf h6 hin) (hr.ph ph rfl) (hr.tr tr rfl) h3 h1 h2 ch junk ho
      refine ⟨a1, ?_, ?_, ?_, ?_⟩
      · intro U hU; cases hU; exact a2
      · intro U hU; cases hU
      · intro U hU; cases hU
      · intro U _ hU; cases hU; exact a3

/-- **C113**: the modes of a block of a Hermitian lead, with discrete symmetries. -/
theorem C113_block_sym (e : BlockNum n) {h hop : Matrix (Fin n) (Fin n) ℂ} (he : e.Ok hop) (hh : h.IsHermitian) (hc : CutExact e.lin hop) (hb : NoBandEdge h hop)
    (hfl : NoFlatBand h hop) {stab : Option (Option Bool × Bool)} (hst : ∀ s0, stab = some (s0, true) → NoInfinite h hop)
    (hsep : ∀ L, setupLinsys e.lin h hop stab = .ok L → WellSeparated e L) (junk : (N : ℕ) → Fin N → ℝ) {m : BlockModes n} {sy : Symm n} (hr : SymRelated sy h hop)
    (hbn : Benign e.mode sy h hop) (hm : computeBlockModes e sy junk h hop stab = .ok m) : BlockSpec h hop m :=
  C113_block_of e he hh hc hb hfl hst hsep junk (fun _ hL _ _ _ junk hin hsp _ ho => (proper_of_benign e he hh hc hst hr hbn hL junk hin hsp ho).1) hm

/-- The symmetries of the lead restricted to a block. -/
noncomputable def innerSymm (P : Projectors n) (sy : Symm n) (b : Fin P.nb) : Symm (P.dim b) := ⟨symTr P sy b b, symPh P sy b b, symChiral P sy b b⟩

theorem inner_related {P : Projectors n} {sy : Symm n} {h hop : Matrix (Fin n) (Fin n) ℂ} (hP : P.Ok h hop) (hsy : SymmOk P sy h hop) (b : Fin P.nb) :
    SymRelated (innerSymm P sy b) (P.blk h b b) (P.blk hop b b) := by
  have hz : ∀ c, (P.proj b)ᴴ * (0 : Matrix (Fin n) (Fin n) ℂ) * (P.proj b).map (cj c) = 0 := by
    intro c
    rw [Matrix.mul_zero, Matrix.zero_mul]
  constructor
  · intro V hV
    obtain ⟨e, hne⟩ := nonzeroSymm_some hV
    rw [e]
    cases ht : sy.tr with
    | none =>
      rw [ht] at hne
      exact absurd (hz true) hne
    | some T =>
      rw [ht] at hne
      exact (hsy.tr T ht).related hP hne
  · intro V hV
    obtain ⟨e, hne⟩ := nonzeroSymm_some hV
    rw [e]
    cases ht : sy.ph with
    | none =>
      rw [ht] at hne
      exact absurd (hz true) hne
    | some T =>
      rw [ht] at hne
      exact (hsy.ph T ht).related hP hne
  · intro V hV
    obtain ⟨e, hne⟩ := nonzeroSymm_some hV
    rw [e]
    cases ht : sy.chiral with
    | none =>
      rw [ht] at hne
      have : P.blk (0 : Matrix (Fin n) (Fin n) ℂ) b b = 0 := by rw [Projectors.blk, Matrix.mul_zero, Matrix.zero_mul]
      exact absurd this hne
    | some T =>
      rw [ht] at hne
      have e2 : P.blk T b b = (P.proj b)ᴴ * T * (P.proj b).map (cj false) := by rw [cj_false]; rfl
      change Related (P.blk T b b) _ _ _ _ _ _
      change P.blk T b b ≠ 0 at hne
      rw [e2] at hne ⊢
      exact (hsy.chiral T ht).related hP hne

end Kwant.Leads
