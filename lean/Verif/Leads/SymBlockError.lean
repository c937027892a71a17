import Verif.Leads.SymBlock
import Verif.Leads.BlockError

/-!
C113, C114: when the modes of a block with discrete symmetries can be computed.
-/

set_option linter.unusedSectionVars false

namespace Kwant.Leads
open Matrix Complex Filter

variable {n : ℕ}

/-- There is no propagating mode at the momenta `0` and `π`. -/
def NoTrimModes (h hop : Matrix (Fin n) (Fin n) ℂ) : Prop := ∀ μ ψ, (μ = 1 ∨ μ = -1) → IsBloch h hop μ ψ → ψ = 0

theorem countAt_zero {h hop : Matrix (Fin n) (Fin n) ℂ} {L : Linsys n} {u : Matrix (Fin n) (Fin L.r) ℂ} (hf : Faithful h hop L u) (hg : NoTrimModes h hop)
    {N : ℕ} {lam : Fin N → ℂ} {psi : Matrix (Fin L.r ⊕ Fin L.r) (Fin N) ℂ} (hi : PropInput L lam psi) {μ : ℂ} (hμ : μ = 1 ∨ μ = -1) : countAt lam μ = 0 := by
  rw [countAt, Finset.card_eq_zero, Finset.filter_eq_empty_iff]
  intro i _ hl
  have hne : lam i ≠ 0 := by
    intro h0
    have := hi.unit i
    rw [h0, norm_zero] at this
    exact zero_ne_one this
  obtain ⟨l1, l2⟩ := (link_iff hf hne (psi.col i) _).mpr ⟨hi.solution i, rfl⟩
  have h0 := hg (lam i) _ (by rw [hl]; exact hμ) l2
  rw [h0, mulVec_zero, mulVec_zero, smul_zero] at l1
  have h1 : psi *ᵥ Pi.single i 1 = 0 := by
    rw [mulVec_single_one, l1]
    ext x
    rcases x with x | x <;> rfl
  have h2 := hi.indep (lam i) (Pi.single i 1) (by
    intro j hj
    rw [Pi.single_apply, if_neg]
    intro hji
    exact hj (by rw [hji])) h1
  have h3 := congrFun h2 i
  rw [Pi.single_eq_same] at h3
  exact one_ne_zero h3

/-- **C113**: with discrete symmetries, the modes can be computed if and only if they can be computed without them (C113_error), if no particle-hole symmetry is given or there are
no modes at the momenta `0` and `π`. -/
theorem C113_error_sym (e : BlockNum n) {h hop : Matrix (Fin n) (Fin n) ℂ} (he : e.Ok hop) (hh : h.IsHermitian) (hc : CutExact e.lin hop) (hb : NoBandEdge h hop)
    (hfl : NoFlatBand h hop) {stab : Option (Option Bool × Bool)} (hst : ∀ s0, stab = some (s0, true) → NoInfinite h hop)
    (hsep : ∀ L, setupLinsys e.lin h hop stab = .ok L → WellSeparated e L) (junk : (N : ℕ) → Fin N → ℝ) {sy : Symm n} (hr : SymRelated sy h hop)
    (hbn : Benign e.mode sy h hop) (hph : ∀ U, sy.ph = some U → (U * conjM U = 1 ∨ U * conjM U = -1) ∧ NoTrimModes h hop) :
    (∃ m, computeBlockModes e sy junk h hop stab = .ok m) ↔ ∃ m, computeBlockModes e ⟨none, none, none⟩ junk h hop stab = .ok m := by
  rw [computeBlockModes, computeBlockModes]
  match hL : setupLinsys e.lin h hop stab with
  | .error x => simp
  | .ok L =>
    dsimp only
    obtain ⟨hg, hsp⟩ := hsep L hL
    obtain ⟨u, hf⟩ := setup_faithful e.lin he.lin hL hc hst
    have hin := propInput_block hh hf hb hfl he.eig hg
    have key : (∃ o, makeProperModes e.mode sy (junk _) ((unifiedEigenproblem e.eig L.a L.b).ev ∘ (selected (unifiedEigenproblem e.eig L.a L.b).propselect).get)
          ((unifiedEigenproblem e.eig L.a L.b).vecGen (selected (unifiedEigenproblem e.eig L.a L.b).propselect)) L.extract = .ok o) ↔
        ∃ o, makeProperModes e.mode ⟨none, none, none⟩ (junk _) ((unifiedEigenproblem e.eig L.a L.b).ev ∘ (selected (unifiedEigenproblem e.eig L.a L.b).propselect).get)
          ((unifiedEigenproblem e.eig L.a L.b).vecGen (selected (unifiedEigenproblem e.eig L.a L.b).propselect)) L.extract = .ok o := by
      obtain ⟨tr, ph, ch⟩ := sy
      cases ph with
      | some ph =>
        obtain ⟨_, _, h3, h4, h5, h6⟩ := hbn.ph (by simp)
        obtain ⟨p1, p2⟩ := hph ph rfl
        have := (C158_error e.lin he.lin hL hc hst e.mode he.mode h4 h5 hin hsp (trimSep_of_gap hf h6 hin) (hr.ph ph rfl) p1 h3 (tr := tr) (ch := ch) (by
          intro ht
          cases ch with
          | none => rfl
          | some ch =>
            have := (hbn.chiral (by simp) ht).1
            cases this) (junk _)).1
        rw [this, countAt_zero hf p2 hin (.inl rfl), countAt_zero hf p2 hin (.inr rfl)]
        simp
      | none =>
        cases tr with
        | some tr =>
          have := C156_error e.mode tr ch ((unifiedEigenproblem e.eig L.a L.b).ev ∘ (selected (unifiedEigenproblem e.eig L.a L.b).propselect).get)
            ((unifiedEigenproblem e.eig L.a L.b).vecGen (selected (unifiedEigenproblem e.eig L.a L.b).propselect)) L.extract (junk _)
          constructor
          · rintro ⟨o, ho⟩
            match hm : makeProperModes e.mode ⟨none, none, none⟩ (junk _) ((unifiedEigenproblem e.eig L.a L.b).ev ∘ (selected (unifiedEigenproblem e.eig L.a L.b).propselect).get)
              ((unifiedEigenproblem e.eig L.a L.b).vecGen (selected (unifiedEigenproblem e.eig L.a L.b).propselect)) L.extract with
            | .ok o => exact ⟨o, rfl⟩
            | .error x =>
              have := ho.symm.trans ((this x).mpr hm)
              cases this
          · rintro ⟨o, ho⟩
            match hm : makeProperModes e.mode ⟨some tr, none, ch⟩ (junk _) ((unifiedEigenproblem e.eig L.a L.b).ev ∘ (selected (unifiedEigenproblem e.eig L.a L.b).propselect).get)
              ((unifiedEigenproblem e.eig L.a L.b).vecGen (selected (unifiedEigenproblem e.eig L.a L.b).propselect)) L.extract with
            | .ok o => exact ⟨o, rfl⟩
            | .error x =>
              have := ho.symm.trans ((this x).mp hm)
              cases this
        | none =>
          cases ch with
          | none => rfl
          | some ch => exact C157_error e.lin he.lin hL hc hst e.mode he.mode hin hsp (hr.chiral ch rfl) (junk _)
    have one : ∀ sy : Symm n, (∃ m, blockOf e sy junk L (unifiedEigenproblem e.eig L.a L.b) = .ok m) ↔
        ∃ o, makeProperModes e.mode sy (junk _) ((unifiedEigenproblem e.eig L.a L.b).ev ∘ (selected (unifiedEigenproblem e.eig L.a L.b).propselect).get)
          ((unifiedEigenproblem e.eig L.a L.b).vecGen (selected (unifiedEigenproblem e.eig L.a L.b).propselect)) L.extract = .ok o := by
      intro sy
      rw [blockOf]
      split
      · rename_i x hx
        rw [hx]
        simp
      · rename_i o ho
        constructor
        · intro _
          exact ⟨o, ho⟩
        · intro _
          exact ⟨_, rfl⟩
    rw [one, one]
    exact key

end Kwant.Leads
