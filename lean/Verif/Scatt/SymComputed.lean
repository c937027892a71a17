import Verif.Scatt.SymBasis
import Verif.Leads.ModesSym

/-!
C189: the scattering matrix in the basis of the modes that `modes` returns for leads with discrete symmetries.
-/

set_option linter.unusedSectionVars false

namespace Kwant.Scatt
open Finset Complex Filter
open Matrix hiding mulVec
open Kwant.Leads hiding Modes
open Kwant.Solver hiding transmission LErr mulVec

variable {T : Open} {E : ℝ}

/-! ### Hypotheses -/

/-- The matrices of the discrete symmetries are unitary. -/
def SymUnitary {n : ℕ} (sy : Symm n) : Prop := (∀ U, sy.tr = some U → Uᴴ * U = 1) ∧ (∀ U, sy.ph = some U → Uᴴ * U = 1) ∧ ∀ U, sy.chiral = some U → Uᴴ * U = 1

/-- Leads without conservation laws, with unitary discrete symmetries, and the modes that `modes` returns. -/
structure SymLeads (e : ModesNum) (T : Open) (E : ℝ) (M : (l : Fin T.N) → LeadModes (T.lead l).n (T.lead l).m) : Prop where
  ok : LeadsOk e T E
  none : ∀ l, (T.lead l).projectors = none
  unitary : ∀ l, SymUnitary (T.lead l).sy
  computed : Computed e T E M

/-- The basis of these modes. -/
def plainBasis (M : (l : Fin T.N) → LeadModes (T.lead l).n (T.lead l).m) : LeadBasis T := ⟨M, fun _ _ => 1⟩

/-! ### Proofs -/

variable {e : ModesNum} {M : (l : Fin T.N) → LeadModes (T.lead l).n (T.lead l).m}

theorem SymLeads.sym (hs : SymLeads e T E M) (l : Fin T.N) : SymLead (T.lead l).sy (M l).wf (M l).mom (M l).vel ∧
    LeadSpec ((T.lead l).at E) (padHop (T.lead l).hop) (M l).wf (M l).mom (M l).vel (M l).stab.vecslmbdainv (M l).stab.vecs (padRows (M l).stab.sqrtHop) fun _ => 1 := by
  have h1 := hs.ok l
  have h2 := hs.computed l
  rw [hs.none l] at h1 h2
  exact C189_modes h1 (hs.unitary l) h2

/-- C189: no signs appear for leads without conservation laws. -/
theorem C189_basis (hs : SymLeads e T E M) : BasisOk E (plainBasis M) := by
  have h1 := fun l => C114_modes (hs.ok l) (hs.computed l)
  exact ⟨fun l => (hs.ok l).herm, fun l => (hs.sym l).2, fun l => (h1 l).incoming, fun l => (h1 l).outgoing, fun l => (h1 l).number, fun l => modes_size (hs.computed l)⟩

variable {u : ℕ → ℕ → ℂ} {R : (l : Fin T.N) → Matrix (Fin (T.lead l).n) (Fin (T.lead l).n) ℂ} {Rm : (l : Fin T.N) → Matrix (Fin (T.lead l).m) (Fin (T.lead l).m) ℂ}

/-- C189: if the leads are given their time-reversal symmetry, the scattering matrix is symmetric for `T² = 1` and antisymmetric for `T² = -1`. -/
theorem C189_computed_time_reversal (hT : T.Ok) (hS : SymMap true false T T.ham.val T.data u R Rm) (hs : SymLeads e T E M) (hsy : ∀ l, (T.lead l).sy.tr = some (R l)) {σ : ℝ}
    (hsq : ∀ l, R l * (R l).map star = (σ : ℂ) • 1) {S : FullS} (h : IsSmatrix E (plainBasis M) S) (l k : Fin T.N) (a : Fin (M l).p) (b : Fin (M k).p) : S l a k b = σ * S k b l a := by
  refine C189_time_reversal hS hT (C189_basis hs) (fun _ _ => rfl) h hsq (fun l i => ?_) l k a b
  obtain ⟨h1, _, h2⟩ := (hs.sym l).1.tr (R l) (hsy l) i
  refine ⟨?_, ?_⟩
  · rw [one_smul]
    exact h1.symm
  · exact star_mom_neg h2

/-- C189: if the leads are given their chiral symmetry, the scattering matrix at zero energy is Hermitian, if its rows are ordered like the partners of the incoming modes. -/
theorem C189_computed_chiral {M : (l : Fin T.N) → LeadModes (T.lead l).n (T.lead l).m} (hT : T.Ok) (hS : SymMap false true T T.ham.val T.data u R Rm) (hs : SymLeads e T 0 M)
    (hsy : ∀ l, (T.lead l).sy.tr = none ∧ (T.lead l).sy.chiral = some (R l)) (hsq : ∀ l, R l * R l = 1) : ∃ f : (l : Fin T.N) → Equiv.Perm (Fin (M l).p),
      (∀ l i, (M l).wf.col (.inr (f l i)) = R l *ᵥ (M l).wf.col (.inl i)) ∧
      ∀ {S : FullS}, IsSmatrix 0 (plainBasis M) S → ∀ (l k : Fin T.N) (a : Fin (M l).p) (b : Fin (M k).p), star (S l (f l a) k b) = S k (f k b) l a := by
  choose f hf using fun l => (hs.sym l).1.chiral (R l) (hsy l).1 (hsy l).2
  refine ⟨f, fun l i => (hf l i).1, fun {S} h l k a b => ?_⟩
  have hsq' : ∀ l, R l * (R l).map (kap false) = (1 : ℂ) • 1 := fun l => by
    rw [one_smul]
    exact hsq l
  have hin : ∀ (l : Fin T.N) (i : Fin ((plainBasis M).M l).p), ModeImage ((plainBasis M).M l) false (R l) (.inl i) (.inr (f l i)) 1 := by
    intro l i
    refine ⟨?_, ?_⟩
    · rw [one_smul]
      exact (hf l i).1.symm
    · have h3 := (hf l i).2.2
      change cexp (-(I * ((M l).mom (.inr (f l i)) : ℝ))) = cexp (-(I * ((M l).mom (.inl i) : ℝ)))
      rw [h3]
  have hout : ∀ (l : Fin T.N) (i : Fin ((plainBasis M).M l).p), ModeImage ((plainBasis M).M l) false (R l) (.inr i) (.inl ((f l).symm i)) 1 := by
    intro l i
    have h3 := image_back (hsq' l) (hin l ((f l).symm i))
    have e1 : (f l) ((f l).symm i) = i := (f l).apply_symm_apply i
    exact (congrArg (fun j => ModeImage (M l) false (R l) (.inr j) (.inl ((f l).symm i)) 1) e1).mp h3
  have h1 := C189_reversed (π := fun l => f l) (ρ := fun l => (f l).symm) (τ := fun _ _ => 1) (υ := fun _ _ => 1) hS hT (by simp) (C189_basis hs) h hin hout
    (fun l => (f l).symm.injective) l k (f k b) a
  change star (S l (f l a) k ((f k).symm (f k b))) * (1 * 1 * 1) = 1 * 1 * 1 * S k (f k b) l a at h1
  rw [Equiv.symm_apply_apply] at h1
  rw [one_mul, one_mul, mul_one] at h1
  rw [h1, one_mul]

/-- Different modes have different images. -/
theorem image_injective {B : LeadBasis T} (hB : BasisOk E B) {c : Bool} (l : Fin T.N) (hR : (R l)ᴴ * R l = 1) {i i' j : Fin (B.M l).p ⊕ Fin (B.M l).p} {z z' : ℂ}
    (h : ModeImage (B.M l) c (R l) i j z) (h' : ModeImage (B.M l) c (R l) i' j z') : i = i' := by
  by_contra hne
  have hk : cexp (-(I * (B.M l).mom i)) = cexp (-(I * (B.M l).mom i')) := by
    have h1 := congrArg (kap c) (h.2.symm.trans h'.2)
    rw [kap_kap, kap_kap] at h1
    exact h1
  have ho := (hB.spec l).orthogonal
  -- the images are orthogonal, too
  have hin : ∀ x y : Fin (T.lead l).n → ℂ, star (CellMap.img c (R l) x) ⬝ᵥ CellMap.img c (R l) y = kap c (star x ⬝ᵥ y) := by
    intro x y
    unfold CellMap.img
    rw [star_mulVec, ← dotProduct_mulVec, Matrix.mulVec_mulVec, hR, Matrix.one_mulVec, dotProduct, dotProduct, map_sum]
    refine Finset.sum_congr rfl fun a _ => ?_
    rw [map_mul]
    congr 1
    exact (kap_star c _).symm
  have h1 := hin ((B.M l).wf.col i) ((B.M l).wf.col i')
  have e1 : CellMap.img c (R l) ((B.M l).wf.col i) = z • (B.M l).wf.col j := h.1
  have e2 : CellMap.img c (R l) ((B.M l).wf.col i') = z' • (B.M l).wf.col j := h'.1
  rw [ho i i' hk, if_neg hne, map_zero, e1, e2, star_smul, smul_dotProduct, dotProduct_smul, ho j j rfl, if_pos rfl] at h1
  have hv : ((1 / |(B.M l).vel j| : ℝ) : ℂ) ≠ 0 := by
    rw [ne_eq, ofReal_eq_zero]
    exact one_div_ne_zero (abs_ne_zero.mpr ((hB.spec l).nonzero j))
  have hz : ∀ {i : Fin (B.M l).p ⊕ Fin (B.M l).p} {z : ℂ}, CellMap.img c (R l) ((B.M l).wf.col i) = z • (B.M l).wf.col j → z ≠ 0 := by
    intro i z hi h0
    have h2 := hin ((B.M l).wf.col i) ((B.M l).wf.col i)
    rw [hi, h0, zero_smul, dotProduct_zero, ho i i rfl, if_pos rfl, kap_real] at h2
    have h3 := one_div_ne_zero (abs_ne_zero.mpr ((hB.spec l).nonzero i))
    exact h3 (ofReal_eq_zero.mp h2.symm)
  simp only [smul_eq_mul] at h1
  rcases mul_eq_zero.mp h1 with h2 | h2
  · exact hz e1 (star_eq_zero.mp h2)
  · rcases mul_eq_zero.mp h2 with h3 | h3
    · exact hz e2 h3
    · exact hv h3

/-- C189: if the leads are given their particle-hole symmetry, the elements of the scattering matrix at zero energy between the partners are complex conjugates of each other, up to
signs, which only appear for `P² = -1`. -/
theorem C189_computed_particle_hole {M : (l : Fin T.N) → LeadModes (T.lead l).n (T.lead l).m} (hT : T.Ok) (hS : SymMap true true T T.ham.val T.data u R Rm) (hs : SymLeads e T 0 M)
    (hsy : ∀ l, (T.lead l).sy.tr = none ∧ (T.lead l).sy.ph = some (R l)) {η : ℝ} (hη : η = 1 ∨ η = -1) (hsq : ∀ l, R l * (R l).map star = (η : ℂ) • 1) :
    ∃ (π ρ : (l : Fin T.N) → Fin (M l).p → Fin (M l).p) (τ υ : (l : Fin T.N) → Fin (M l).p → ℝ), (∀ l i, (τ l i = 1 ∨ τ l i = η) ∧ (υ l i = 1 ∨ υ l i = η)) ∧
      (∀ l i, R l *ᵥ star ((M l).wf.col (.inl i)) = (τ l i : ℂ) • (M l).wf.col (.inl (π l i)) ∧ R l *ᵥ star ((M l).wf.col (.inr i)) = (υ l i : ℂ) • (M l).wf.col (.inr (ρ l i))) ∧
      (∀ l, Function.Bijective (π l) ∧ Function.Bijective (ρ l)) ∧
      ∀ {S : FullS}, IsSmatrix 0 (plainBasis M) S → ∀ (l k : Fin T.N) (a : Fin (M l).p) (b : Fin (M k).p), S l (ρ l a) k (π k b) = υ l a * τ k b * star (S l a k b) := by
  have h1 := fun l => (hs.sym l).1.ph (R l) (hsy l).1 (hsy l).2 η hη (hsq l)
  choose π τ h2 h3 h4 using fun l => (h1 l).1
  choose ρ υ h5 h6 h7 using fun l => (h1 l).2
  have hB := C189_basis hs
  have hin : ∀ (l : Fin T.N) (i : Fin ((plainBasis M).M l).p), ModeImage ((plainBasis M).M l) true (R l) (.inl i) (.inl (π l i)) (τ l i) := fun l i => ⟨h3 l i, h4 l i⟩
  have hout : ∀ (l : Fin T.N) (i : Fin ((plainBasis M).M l).p), ModeImage ((plainBasis M).M l) true (R l) (.inr i) (.inr (ρ l i)) (υ l i) := fun l i => ⟨h6 l i, h7 l i⟩
  have hπ : ∀ l, Function.Injective (π l) := by
    intro l i i' hii
    have a1 := hin l i
    rw [show π l i = π l i' from hii] at a1
    have := image_injective (R := R) hB l (hS.unitary l) a1 (hin l i')
    exact Sum.inl_injective this
  have hρ : ∀ l, Function.Injective (ρ l) := by
    intro l i i' hii
    have a1 := hout l i
    rw [show ρ l i = ρ l i' from hii] at a1
    have := image_injective (R := R) hB l (hS.unitary l) a1 (hout l i')
    exact Sum.inr_injective this
  refine ⟨π, ρ, τ, υ, fun l i => ⟨h2 l i, h5 l i⟩, fun l i => ⟨h3 l i, h6 l i⟩, fun l => ⟨Finite.injective_iff_bijective.mp (hπ l), Finite.injective_iff_bijective.mp (hρ l)⟩, ?_⟩
  intro S h l k a b
  refine C189_particle_hole hS hT hB (fun _ _ => rfl) h hin hout hρ ?_ l k a b
  intro l i
  rcases h2 l i with h | h
  · exact .inl h
  · rcases hη with h' | h'
    · exact .inl (h.trans h')
    · exact .inr (h.trans h')

end Kwant.Scatt
