import Verif.Scatt.Phys

/-!
C116: what `smatrix` computes from the modes of the leads is the scattering matrix of the infinite system.
-/

set_option linter.unusedSectionVars false

namespace Kwant.Scatt
open Finset Complex Filter
open Matrix hiding mulVec
open Kwant.Leads hiding Modes
open Kwant.Solver hiding transmission LErr mulVec

variable {T : Open} {E : ℝ}

/-! ### Matrices -/

theorem toMat_val {a b : ℕ} (A : Matrix (Fin a) (Fin b) ℂ) (i : Fin a) (j : Fin b) : (toMat A).val i j = A i j := dif_pos ⟨i.2, j.2⟩

/-- The number of the column of a mode. -/
def colNum {p q : ℕ} : (Fin p ⊕ Fin p) ⊕ Fin q → ℕ := Sum.elim (Sum.elim (fun a => a) (fun a => p + a)) (fun a => p + (p + a))

theorem colIdx_num {p q : ℕ} (x : (Fin p ⊕ Fin p) ⊕ Fin q) : ((colIdx p q).symm x : ℕ) = colNum x := by
  rcases x with (a | a) | a
  · rfl
  · rfl
  · change p + p + (a : ℕ) = p + (p + a)
    omega

theorem toMat_col {a p q : ℕ} (A : Matrix (Fin a) ((Fin p ⊕ Fin p) ⊕ Fin q) ℂ) (i : Fin a) (x : (Fin p ⊕ Fin p) ⊕ Fin q) :
    (toMat (A.submatrix id (colIdx p q))).val i (colNum x) = A i x := by
  rw [← colIdx_num, toMat_val, submatrix_apply, id, Equiv.apply_symm_apply]

/-- The amplitudes of all modes. -/
def amps {p q : ℕ} (own : Prop) [Decidable own] (b : ℕ) (s : ℕ → ℂ) : (Fin p ⊕ Fin p) ⊕ Fin q → ℂ :=
  Sum.elim (Sum.elim (fun a => if own ∧ (a : ℕ) = b then 1 else 0) (fun a => s a)) (fun a => s (p + a))

theorem mulVec_amps {a p q : ℕ} (A : Matrix (Fin a) ((Fin p ⊕ Fin p) ⊕ Fin q) ℂ) (own : Prop) [Decidable own] (b : ℕ) (hb : own → b < p) (s : ℕ → ℂ) (i : Fin a) :
    (∑ m ∈ range (p + q), (toMat (A.submatrix id (colIdx p q))).val i (p + m) * s m) + (if own then (toMat (A.submatrix id (colIdx p q))).val i b else 0) =
    (A *ᵥ amps own b s) i := by
  rw [Matrix.mulVec, dotProduct, Fintype.sum_sum_type, Fintype.sum_sum_type, Finset.sum_range_add, Finset.sum_range, Finset.sum_range]
  refine Eq.trans (add_comm _ _) (Eq.trans ?_ (add_assoc _ _ _).symm)
  congr 1
  · by_cases ho : own
    · rw [if_pos ho, Finset.sum_eq_single ⟨b, hb ho⟩]
      · have := toMat_col A i (.inl (.inl ⟨b, hb ho⟩))
        change (toMat (A.submatrix id (colIdx p q))).val i b = _ at this
        rw [this, amps, Sum.elim_inl, Sum.elim_inl, if_pos ⟨ho, rfl⟩, mul_one]
      · intro x _ hx
        rw [amps, Sum.elim_inl, Sum.elim_inl, if_neg (fun h => hx (Fin.ext h.2)), mul_zero]
      · intro h
        exact absurd (Finset.mem_univ _) h
    · rw [if_neg ho]
      symm
      refine Finset.sum_eq_zero fun x _ => ?_
      rw [amps, Sum.elim_inl, Sum.elim_inl, if_neg (fun h => ho h.1), mul_zero]
  · congr 1
    · refine Finset.sum_congr rfl fun x _ => ?_
      have := toMat_col A i (.inl (.inr x))
      change (toMat (A.submatrix id (colIdx p q))).val i (p + x) = _ at this
      rw [this]
      rfl
    · refine Finset.sum_congr rfl fun x _ => ?_
      have := toMat_col A i (.inr x)
      change (toMat (A.submatrix id (colIdx p q))).val i (p + (p + x)) = _ at this
      rw [this]
      rfl

/-! ### The system as the solvers see it -/

section
variable (M : (l : Fin T.N) → LeadModes (T.lead l).n (T.lead l).m) (Sig : (l : Fin T.N) → Matrix (Fin (T.lead l).m) (Fin (T.lead l).m) ℂ)

/-- A lead as the solvers see it. -/
noncomputable def solverLead (l : Fin T.N) : Solver.Lead ℂ := ⟨false, toMat (Sig l), toModes (M l), (T.lead l).interface⟩

theorem toSys_leads : (T.toSys M Sig).leads = List.ofFn (solverLead M Sig) := rfl

theorem toSys_length : (T.toSys M Sig).leads.length = T.N := by rw [toSys_leads, List.length_ofFn]

theorem toSys_get (l : Fin T.N) : (T.toSys M Sig).leads[(l : ℕ)]? = some (solverLead M Sig l) := by
  rw [toSys_leads, List.getElem?_ofFn, dif_pos l.2]

theorem toSys_getD {k : ℕ} {lead : Solver.Lead ℂ} (h : (T.toSys M Sig).leads[k]? = some lead) : ∃ l : Fin T.N, (l : ℕ) = k ∧ lead = solverLead M Sig l := by
  rw [toSys_leads, List.getElem?_ofFn] at h
  split at h
  · rename_i hk
    exact ⟨⟨k, hk⟩, rfl, (Option.some.inj h).symm⟩
  · cases h

theorem toSys_sum (f : Solver.Lead ℂ → ℕ → ℂ) : ∑ l : Fin (T.toSys M Sig).leads.length, f (T.toSys M Sig).leads[l] l = ∑ l : Fin T.N, f (solverLead M Sig l) l := by
  refine Fintype.sum_equiv (finCongr (toSys_length M Sig)) _ _ fun l => ?_
  congr 1
  have h1 := List.getElem?_eq_getElem l.2
  have h2 := toSys_get M Sig (finCongr (toSys_length M Sig) l)
  have h3 : ((finCongr (toSys_length M Sig) l : Fin T.N) : ℕ) = l := rfl
  rw [h3, h1] at h2
  exact Option.some.inj h2

theorem lead_hasModes (l : Fin T.N) : (solverLead M Sig l).hasModes ↔ (M l).r ≠ 0 := by
  constructor
  · intro h
    exact h.2
  · intro h
    exact ⟨rfl, h⟩

end

theorem sysOk {B : LeadBasis T} (hT : T.Ok) (hB : BasisOk E B) (Sig) : SysOk (T.toSys B.M Sig) := by
  refine ⟨hT.square, hT.size, ?_, ?_⟩
  · intro lead hl
    obtain ⟨k, hk, rfl⟩ := List.getElem_of_mem hl
    obtain ⟨l, _, h2⟩ := toSys_getD B.M Sig (List.getElem?_eq_getElem hk)
    rw [h2]
    exact hT.iface l
  · intro lead hl _
    obtain ⟨k, hk, rfl⟩ := List.getElem_of_mem hl
    obtain ⟨l, _, h2⟩ := toSys_getD B.M Sig (List.getElem?_eq_getElem hk)
    rw [h2]
    have := hB.number l
    change (B.M l).p ≤ (B.M l).p + (B.M l).p + (B.M l).q ∧ (B.M l).p + (B.M l).p + (B.M l).q - (B.M l).p = (B.M l).r
    omega

theorem lead_nout {B : LeadBasis T} (hB : BasisOk E B) (Sig) (l : Fin T.N) : (solverLead B.M Sig l).nout = (B.M l).p + (B.M l).q := by
  have hn := hB.number l
  rw [Solver.Lead.nout]
  split
  · change (B.M l).p + (B.M l).p + (B.M l).q - (B.M l).p = _
    omega
  · rename_i h
    rw [lead_hasModes, not_not] at h
    omega

theorem lead_nprop {B : LeadBasis T} (hB : BasisOk E B) (Sig) (l : Fin T.N) : (solverLead B.M Sig l).nprop = (B.M l).p := by
  have hn := hB.number l
  rw [Solver.Lead.nprop]
  split
  · rfl
  · rename_i h
    rw [lead_hasModes, not_not] at h
    omega

/-! ### Matching -/

/-- The equations for the amplitudes `c` of the modes. -/
structure Matched (T : Open) (E : ℝ) (B : LeadBasis T) (ψ : ℕ → ℂ) (c : (l : Fin T.N) → (Fin (B.M l).p ⊕ Fin (B.M l).p) ⊕ Fin (B.M l).q → ℂ) : Prop where
  region : ∀ α < T.ham.rows, (∑ β ∈ range T.ham.rows, T.ham.val α β * ψ β) - E * ψ α + (∑ l, T.fromLead l ((B.M l).stab.sqrtHop *ᵥ ((B.M l).stab.vecs *ᵥ c l)) α) = 0
  lead : ∀ l, (B.M l).stab.vecslmbdainv *ᵥ c l = (B.M l).stab.sqrtHopᴴ *ᵥ T.amp ψ l

theorem sum_iface (hT : T.Ok) (l : Fin T.N) (f : ℕ → ℂ) : ∑ p ∈ range (orbs T.norb (T.lead l).interface).length, f p = ∑ p : Fin (T.lead l).m, f p := by
  have h1 : (orbs T.norb (T.lead l).interface).length = (T.lead l).m := hT.width l
  rw [h1, Finset.sum_range]

theorem matched_of_scattering (hT : T.Ok) {B : LeadBasis T} (hB : BasisOk E B) {Sig} {i b : ℕ} (hb : ∀ l : Fin T.N, (l : ℕ) = i → b < (B.M l).p) {ψ : ℕ → ℂ} {s : ℕ → ℕ → ℂ}
    (h : IsScattering (T.toSys B.M Sig) (E : ℂ) i b ψ s) : Matched T E B ψ (fun l => amps ((l : ℕ) = i) b (s l)) := by
  constructor
  · intro α hα
    have h1 := h.region α hα
    rw [toSys_sum B.M Sig (fun lead l => leadTerm (T.toSys B.M Sig).norb lead ψ (s l) α), toSys_sum B.M Sig (fun lead l => if l = i then incoming (T.toSys B.M Sig).norb lead b α else 0), add_assoc,
      ← Finset.sum_add_distrib] at h1
    have hc : (T.toSys B.M Sig).ham.cols = T.ham.rows := hT.square
    rw [hc] at h1
    rw [← h1]
    refine congrArg (fun z => _ + z) (Finset.sum_congr rfl fun l _ => ?_)
    have hin : (if (l : ℕ) = i then incoming T.norb (solverLead B.M Sig l) b α else 0) = ∑ p ∈ range (orbs T.norb (T.lead l).interface).length,
        if (orbs T.norb (T.lead l).interface)[p]? = some α then
          (if (l : ℕ) = i then ∑ k ∈ range (B.M l).r, (toMat (B.M l).stab.sqrtHop).val p k * (toModes (B.M l)).u.val k b else 0) else 0 := by
      by_cases hl : (l : ℕ) = i
      · simp only [if_pos hl]
        rfl
      · simp only [if_neg hl, ite_self, Finset.sum_const_zero]
    have hnorb : (T.toSys B.M Sig).norb = T.norb := rfl
    rw [hnorb, hin, leadTerm, Open.fromLead]
    change _ = (∑ p ∈ range (orbs T.norb (T.lead l).interface).length, if (orbs T.norb (T.lead l).interface)[p]? = some α then
      ∑ m ∈ range (solverLead B.M Sig l).nout, (∑ k ∈ range (B.M l).r, (toMat (B.M l).stab.sqrtHop).val p k * (toModes (B.M l)).u.val k ((B.M l).p + m)) * s l m else 0) + _
    rw [← Finset.sum_add_distrib, sum_iface hT]
    refine Finset.sum_congr rfl fun p _ => ?_
    change (if (orbs T.norb (T.lead l).interface)[(p : ℕ)]? = some α then _ else _) = _
    by_cases hp : (orbs T.norb (T.lead l).interface)[(p : ℕ)]? = some α
    · rw [if_pos hp, if_pos hp, if_pos hp, lead_nout hB]
      have h2 : ∀ k : Fin (B.M l).r, ((B.M l).stab.vecs *ᵥ amps ((l : ℕ) = i) b (s l)) k = _ := fun k => (mulVec_amps (B.M l).stab.vecs ((l : ℕ) = i) b (hb l) (s l) k).symm
      rw [Matrix.mulVec, dotProduct]
      simp only [h2, mul_add, Finset.sum_add_distrib]
      congr 1
      · simp only [Finset.sum_mul, Finset.mul_sum]
        rw [Finset.sum_comm]
        refine Finset.sum_congr rfl fun m _ => ?_
        rw [Finset.sum_range]
        refine Finset.sum_congr rfl fun k _ => ?_
        rw [toMat_val, mul_assoc]
        rfl
      · by_cases hl : (l : ℕ) = i
        · simp only [if_pos hl]
          rw [Finset.sum_range]
          refine Finset.sum_congr rfl fun k _ => ?_
          rw [toMat_val]
          rfl
        · simp only [if_neg hl, mul_zero, Finset.sum_const_zero]
    · rw [if_neg hp, if_neg hp, if_neg hp, add_zero]
  · intro l
    ext r
    have hm : (solverLead B.M Sig l).hasModes := (lead_hasModes B.M Sig l).mpr (by have := r.2; omega)
    have h1 := h.matching l (solverLead B.M Sig l) (toSys_get B.M Sig l) hm r r.2
    rw [lead_nout hB] at h1
    have h2 := mulVec_amps (B.M l).stab.vecslmbdainv ((l : ℕ) = i) b (hb l) (s l) r
    rw [← h2]
    refine Eq.trans h1.symm ?_
    change ∑ p ∈ range (orbs T.norb (T.lead l).interface).length, star ((toMat (B.M l).stab.sqrtHop).val p r) * ψ ((orbs T.norb (T.lead l).interface).getD p 0) = _
    rw [sum_iface hT, Matrix.mulVec, dotProduct]
    refine Finset.sum_congr rfl fun p _ => ?_
    rw [toMat_val]
    rfl

/-- A solution of the equations for the amplitudes is a wave function of the infinite system. -/
theorem wave_of_matched {B : LeadBasis T} (hB : BasisOk E B) {ψ : ℕ → ℂ} {c : (l : Fin T.N) → (Fin (B.M l).p ⊕ Fin (B.M l).p) ⊕ Fin (B.M l).q → ℂ} (h : Matched T E B ψ c) :
    ∃ Ψ, InfWave T E ψ Ψ ∧ (∀ l, Asymp (B.M l) (B.sg l) (c l ∘ Sum.inl) (Ψ l)) ∧ ∀ l, Ψ l 0 = 0 → (B.M l).stab.vecs *ᵥ c l = 0 := by
  choose u Φ F hf hu ho using fun l => all_modes (hB.spec l)
  have hm := fun l => hop_factor (vm := (B.M l).stab.sqrtHop) (hB.size l) (u l) (hf l)
  refine ⟨fun l => modeWave (allPhi (B.M l).wf (B.M l).mom (B.sg l) (Φ l)) (fun i => (cexp (-(I * (B.M l).mom i)))⁻¹) (F l) (c l), ⟨?_, ?_⟩, ?_, ?_⟩
  · intro α hα
    rw [← h.region α hα]
    congr 1
    refine Finset.sum_congr rfl fun l _ => ?_
    congr 1
    rw [hm l, conjTranspose_mul, conjTranspose_conjTranspose, modeWave, pow_zero, one_mulVec, (ho l).eY]
    simp only [mulVec_mulVec, Matrix.mul_assoc]
  · intro l
    exact modeWave_solution (ho l) (hf l) (hm l) (h.lead l)
  · intro l
    unfold Asymp
    simp only [asymp_wave _ _ (Φ l) (F l)]
    exact modeWave_decay (ho l).decay (c l)
  · intro l h0
    simp only [modeWave, pow_zero, one_mulVec] at h0
    rw [(ho l).eY, ← mulVec_mulVec, h0, mulVec_zero]

theorem amps_inl {p q : ℕ} (own : Prop) [Decidable own] (b : ℕ) (s : ℕ → ℂ) :
    (amps own b s : (Fin p ⊕ Fin p) ⊕ Fin q → ℂ) ∘ Sum.inl = Sum.elim (fun a : Fin p => if own ∧ (a : ℕ) = b then 1 else 0) (fun a : Fin p => s a) := rfl

theorem wave_of_scattering (hT : T.Ok) {B : LeadBasis T} (hB : BasisOk E B) {Sig} {i : Fin T.N} {b : ℕ} (hb : b < (B.M i).p) {ψ : ℕ → ℂ} {s : ℕ → ℕ → ℂ}
    (h : IsScattering (T.toSys B.M Sig) (E : ℂ) i b ψ s) : ∃ Ψ, ScattWave E B i b s ψ Ψ := by
  have hb' : ∀ l : Fin T.N, (l : ℕ) = i → b < (B.M l).p := fun l hl => by rw [Fin.ext hl]; exact hb
  obtain ⟨Ψ, h1, h2, _⟩ := wave_of_matched hB (matched_of_scattering hT hB hb' h)
  refine ⟨Ψ, h1, fun l => ?_⟩
  have h3 := h2 l
  rw [amps_inl] at h3
  convert h3 using 4
  rw [Fin.ext_iff]

/-- `smatrix` returns the scattering matrix of the infinite system, for given signs of the modes. -/
theorem smatrix_part (hT : T.Ok) {M : (l : Fin T.N) → LeadModes (T.lead l).n (T.lead l).m} {sg : (l : Fin T.N) → Fin (M l).p ⊕ Fin (M l).p → ℂ} (hB : BasisOk E ⟨M, sg⟩) (Sig)
    {outLeads inLeads : Option (List ℕ)} {check : Bool} {ls : LinearSys ℂ} {kv o i : List ℕ} (h : smatrixSetup (T.toSys M Sig) (E : ℂ) outLeads inLeads check = .ok (ls, kv, o, i))
    (hz : (∀ l, (T.lead l).hop ≠ 0) ∨ o = List.range T.N) {X : ℕ → ℕ → ℂ} (hX : Solves ls X) {S : FullS} (hS : IsSmatrix E ⟨M, sg⟩ S) {s : SMat}
    (hdata : ∀ p c r, kv[p]? = some r → s.data p c = X r c) (hN : s.nLeads = T.N) (hso : s.outLeads = o) (hsi : s.inLeads = i) (hsz : s.sizes = (LeadBasis.mk M sg).num) : PartOf s S := by
  have hsys := sysOk hT hB Sig
  have hr : ∀ l, (T.lead l).hop ≠ 0 → (M l).r ≠ 0 := by
    intro l hl hr
    obtain ⟨u, _, _, hf, _⟩ := all_modes (hB.spec l)
    refine hl ?_
    rw [hop_factor (vm := (M l).stab.sqrtHop) (hB.size l) u hf]
    ext x y
    rw [mul_apply, Matrix.zero_apply]
    exact Finset.sum_eq_zero fun k _ => absurd (show (k : ℕ) < (M l).r from k.2) (by omega)
  have hz' : (∀ l ∈ (T.toSys M Sig).leads, l.isSelfEnergy = false → l.modes.u.rows ≠ 0) ∨ o = List.range (T.toSys M Sig).leads.length := by
    rcases hz with hz | hz
    · refine .inl fun lead hl _ => ?_
      obtain ⟨k, hk, rfl⟩ := List.getElem_of_mem hl
      obtain ⟨l, _, h2⟩ := toSys_getD M Sig (List.getElem?_eq_getElem hk)
      rw [h2]
      exact hr l (hz l)
    · right
      rw [toSys_length, hz]
  obtain ⟨_, _, h3, h4, _, _, h7, h8, h9⟩ := smatrixSetup_ok h
  have hlt : ∀ l, l ∈ i ++ o → l < T.N := by
    intro l hl
    obtain ⟨lead, h10, _⟩ := h7 l hl
    obtain ⟨l', h11, _⟩ := toSys_getD M Sig h10
    rw [← h11]
    exact l'.2
  have hnp : ∀ k, (((T.toSys M Sig).leads[k]?).map Solver.Lead.nprop).getD 0 = (LeadBasis.mk M sg).num k := by
    intro k
    by_cases hk : k < T.N
    · have h10 := toSys_get M Sig ⟨k, hk⟩
      rw [show (((⟨k, hk⟩ : Fin T.N)) : ℕ) = k from rfl] at h10
      rw [h10, Option.map_some, Option.getD_some, LeadBasis.num, dif_pos hk]
      exact lead_nprop hB Sig ⟨k, hk⟩
    · rw [LeadBasis.num, dif_neg hk, List.getElem?_eq_none (by rw [toSys_length]; omega)]
      rfl
  refine ⟨?_, ?_, ?_, ?_, ?_⟩
  · rw [hso]; exact h3.imp fun h => ne_of_lt h
  · rw [hsi]; exact h4.imp fun h => ne_of_lt h
  · intro l hl
    rw [hN]
    exact hlt l (List.mem_append_right _ (by rw [← hso]; exact hl))
  · intro l hl
    rw [hN]
    exact hlt l (List.mem_append_left _ (by rw [← hsi]; exact hl))
  · intro lo li a b ko ki hko hki ha hb
    rw [hso] at hko
    rw [hsi] at hki
    rw [hsz] at ha hb
    have hlo := hlt lo (List.mem_append_right _ (List.mem_of_getElem? hko))
    have hli := hlt li (List.mem_append_left _ (List.mem_of_getElem? hki))
    have hb' : b < (M ⟨li, hli⟩).p := by rw [LeadBasis.num, dif_pos hli] at hb; exact hb
    have ha' : a < (M ⟨lo, hlo⟩).p := by rw [LeadBasis.num, dif_pos hlo] at ha; exact ha
    obtain ⟨ψ, s', h10, h11⟩ := C95_smatrix_partial hsys h hz' hX hki (toSys_get M Sig ⟨li, hli⟩) (by rw [lead_nprop hB Sig]; exact hb')
    obtain ⟨row, h12, h13⟩ := h11 ko lo _ a hko (toSys_get M Sig ⟨lo, hlo⟩) (by rw [lead_nprop hB Sig]; exact ha')
    simp only [hnp] at h12 h13
    obtain ⟨Ψ, hw⟩ := wave_of_scattering hT hB hb' h10
    obtain ⟨ψ', Ψ', hw'⟩ := hS ⟨li, hli⟩ b hb'
    have h14 := scatt_unique hT hB hw hw' ⟨lo, hlo⟩ a ha'
    have e1 : before s.sizes s.outLeads ko + a = ((o.take ko).map fun k => (LeadBasis.mk M sg).num k).sum + a := by rw [before, hso, hsz]
    have e2 : before s.sizes s.inLeads ki + b = ((i.take ki).map fun k => (LeadBasis.mk M sg).num k).sum + b := by rw [before, hsi, hsz]
    rw [e1, e2, hdata _ _ row h12]
    exact h13.trans h14

/-- C116: `smatrix` returns the scattering matrix of the infinite system. -/
theorem C116_smatrix {e : ModesNum} (hT : T.Ok) (ho : LeadsOk e T E) {M : (l : Fin T.N) → LeadModes (T.lead l).n (T.lead l).m} (hM : Computed e T E M) (Sig)
    {outLeads inLeads : Option (List ℕ)} {check : Bool} {ls : LinearSys ℂ} {kv o i : List ℕ} (h : smatrixSetup (T.toSys M Sig) (E : ℂ) outLeads inLeads check = .ok (ls, kv, o, i))
    (hz : (∀ l, (T.lead l).hop ≠ 0) ∨ o = List.range T.N) {X : ℕ → ℕ → ℂ} (hX : Solves ls X) :
    ∃ sg, SignsOk ⟨M, sg⟩ ∧ BasisOk E ⟨M, sg⟩ ∧ ∀ S, IsSmatrix E ⟨M, sg⟩ S →
      ∀ (s : SMat), (∀ p c r, kv[p]? = some r → s.data p c = X r c) → s.nLeads = T.N → s.outLeads = o → s.inLeads = i → s.sizes = (LeadBasis.mk M sg).num → PartOf s S := by
  obtain ⟨sg, hsg, hB⟩ := basis_ok ho hM
  exact ⟨sg, hsg, hB, fun S hS s hdata hN hso hsi hsz => smatrix_part hT hB Sig h hz hX hS hdata hN hso hsi hsz⟩

end Kwant.Scatt
