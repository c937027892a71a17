import Verif.Scatt.SymTrans
import Verif.Scatt.Ex

/-!
C188: Onsager's relation, systems with real Hamiltonians, and what `SMatrix.transmission` returns.
-/

set_option linter.unusedSectionVars false

namespace Kwant.Scatt
open Finset Complex Filter
open Matrix hiding mulVec
open Kwant.Leads hiding Modes
open Kwant.Solver hiding transmission LErr mulVec

variable {T : Open} {E : ℝ} {c g : Bool} {H : ℕ → ℕ → ℂ} {L : (l : Fin T.N) → LeadHam (T.lead l).n (T.lead l).m} {u : ℕ → ℕ → ℂ}
  {R : (l : Fin T.N) → Matrix (Fin (T.lead l).n) (Fin (T.lead l).n) ℂ} {Rm : (l : Fin T.N) → Matrix (Fin (T.lead l).m) (Fin (T.lead l).m) ℂ}
  {B : LeadBasis T} {B' : LeadBasis (T.withHam H L)}

/-- C188: what `transmission` returns for two systems that are related by time reversal or a chiral symmetry. -/
theorem C188_transmission_reversed (hS : SymMap c g T H L u R Rm) (hT : T.Ok) (hT' : (T.withHam H L).Ok) (hB : BasisOk E B) (hB' : BasisOk (eta g * E) B') (hf : c ≠ g) {S S' : FullS}
    (h : IsSmatrix E B S) (h' : IsSmatrix (eta g * E) B' S') {s s' : SMat} (hp : PartOf s S) (hp' : PartOf s' S') (hN : s.nLeads = T.N) (hN' : s'.nLeads = T.N) (hsz : s.sizes = B.num)
    (hsz' : s'.sizes = B'.num) {l k : ℕ} (hl : l < T.N) (hk : k < T.N) (hr : k ∈ s.outLeads ∨ l ∈ s.inLeads) (hr' : l ∈ s'.outLeads ∨ k ∈ s'.inLeads) {t t' : ℝ}
    (ht : Solver.transmission s k l = .ok t) (ht' : Solver.transmission s' l k = .ok t') : t' = t := by
  rw [C116_transmission hT hB h hp hN hsz hk hl hr ht, C116_transmission hT' hB' h' hp' hN' hsz' hl hk hr' ht']
  exact C188_reversed hS hT hT' hB hB' hf h h' ⟨l, hl⟩ ⟨k, hk⟩

/-- C188: what `transmission` returns for two systems that are related by a unitary or a particle-hole symmetry. -/
theorem C188_transmission_preserved (hS : SymMap c g T H L u R Rm) (hT : T.Ok) (hT' : (T.withHam H L).Ok) (hB : BasisOk E B) (hB' : BasisOk (eta g * E) B') (hf : c = g) {S S' : FullS}
    (h : IsSmatrix E B S) (h' : IsSmatrix (eta g * E) B' S') {s s' : SMat} (hp : PartOf s S) (hp' : PartOf s' S') (hN : s.nLeads = T.N) (hN' : s'.nLeads = T.N) (hsz : s.sizes = B.num)
    (hsz' : s'.sizes = B'.num) {l k : ℕ} (hl : l < T.N) (hk : k < T.N) (hr : l ∈ s.outLeads ∨ k ∈ s.inLeads) (hr' : l ∈ s'.outLeads ∨ k ∈ s'.inLeads) {t t' : ℝ}
    (ht : Solver.transmission s l k = .ok t) (ht' : Solver.transmission s' l k = .ok t') : t' = t := by
  rw [C116_transmission hT hB h hp hN hsz hl hk hr ht, C116_transmission hT' hB' h' hp' hN' hsz' hl hk hr' ht']
  exact C188_preserved hS hT hT' hB hB' hf h h' ⟨l, hl⟩ ⟨k, hk⟩

/-! ### The reversed magnetic field -/

/-- All matrix elements of the Hamiltonian are replaced by their complex conjugates: the Peierls phases of the magnetic field change their signs.  The symmetries with which
the modes are computed are arbitrary. -/
noncomputable def Open.reversedField (T : Open) (pr : (l : Fin T.N) → Option (Projectors (T.lead l).n) × Symm (T.lead l).n) : Open :=
  T.withHam (fun α β => star (T.ham.val α β)) fun l => ⟨(T.lead l).ham.map star, (T.lead l).hop.map star, (pr l).1, (pr l).2⟩

variable {pr : (l : Fin T.N) → Option (Projectors (T.lead l).n) × Symm (T.lead l).n}

theorem reversedField_ok (hT : T.Ok) : (T.reversedField pr).Ok := by
  refine ⟨hT.square, hT.size, ?_, hT.iface, hT.width⟩
  intro α hα β hβ
  exact congrArg star (hT.herm α hα β hβ)

theorem iface_delta (hT : T.Ok) (l : Fin T.N) (q : Fin (T.lead l).m) (α : ℕ) :
    (if α = (T.iface l).getD q 0 then (1 : ℂ) else 0) = if (T.iface l)[(q : ℕ)]? = some α then 1 else 0 := by
  have hq : (q : ℕ) < (T.iface l).length := by rw [hT.width]; exact q.2
  have e : (T.iface l)[(q : ℕ)]? = some ((T.iface l)[(q : ℕ)]) := List.getElem?_eq_getElem hq
  have e2 : (T.iface l).getD (q : ℕ) 0 = (T.iface l)[(q : ℕ)] := by rw [List.getD_eq_getElem?_getD, e, Option.getD_some]
  refine if_congr ?_ rfl rfl
  rw [e, e2, Option.some_inj]
  exact eq_comm

theorem reversedField_sym (hT : T.Ok) : SymMap true false T (fun α β => star (T.ham.val α β))
    (fun l => ⟨(T.lead l).ham.map star, (T.lead l).hop.map star, (pr l).1, (pr l).2⟩) (fun α β => if α = β then 1 else 0) (fun _ => 1) (fun _ => 1) := by
  have he : ((eta false : ℝ) : ℂ) = 1 := by simp [eta]
  constructor
  · intro l; rw [conjTranspose_one, Matrix.one_mul]
  · intro l; rw [conjTranspose_one, Matrix.one_mul]
  · intro α hα β hβ
    rw [he, one_mul, Finset.sum_eq_single α, Finset.sum_eq_single β]
    · simp [kap_true]
    · intro γ _ h; rw [if_neg h, mul_zero]
    · intro h; exact absurd (Finset.mem_range.mpr hβ) h
    · intro γ _ h; rw [if_neg (Ne.symm h), zero_mul]
    · intro h; exact absurd (Finset.mem_range.mpr hα) h
  · intro l; rw [he, one_smul, Matrix.one_mul, Matrix.mul_one]; rfl
  · intro l
    rw [he, one_smul, Matrix.one_mul, Matrix.mul_one]
    ext i j
    simp only [padHop, map_apply, of_apply]
    split
    · rfl
    · exact map_zero _
  · intro l; rw [he, one_smul, Matrix.one_mul, Matrix.mul_one]; rfl
  · intro l α hα q
    simp only [one_apply]
    rw [iface_delta hT l q α, Finset.sum_eq_single q]
    · rw [if_pos rfl]
    · intro p _ hp; rw [if_neg hp, ite_self]
    · intro h; exact absurd (Finset.mem_univ q) h
  · intro l p β hβ
    simp only [one_apply]
    rw [Finset.sum_eq_single p]
    · rw [if_pos rfl, ← iface_delta hT l p β]
      exact if_congr eq_comm rfl rfl
    · intro q _ hq; rw [if_neg (Ne.symm hq), ite_self]
    · intro h; exact absurd (Finset.mem_univ p) h

/-- C188: Onsager's relation.  The transmission from `k` to `l` in the reversed magnetic field is the transmission from `l` to `k`. -/
theorem C188_onsager (hT : T.Ok) {B' : LeadBasis (T.reversedField pr)} (hB : BasisOk E B) (hB' : BasisOk E B') {S S' : FullS} (h : IsSmatrix E B S) (h' : IsSmatrix E B' S')
    (l k : Fin T.N) : trans B'.num S' l k = trans B.num S k l := by
  have he : eta false * E = E := by simp [eta]
  have hB2 : BasisOk (eta false * E) B' := by rw [he]; exact hB'
  have h2 : IsSmatrix (eta false * E) B' S' := by rw [he]; exact h'
  exact C188_reversed (reversedField_sym (pr := pr) hT) hT (reversedField_ok hT) hB hB2 (by decide) h h2 l k

/-- All matrix elements of the Hamiltonian are real. -/
structure Open.Real (T : Open) : Prop where
  region : ∀ α β, star (T.ham.val α β) = T.ham.val α β
  cell : ∀ l i j, star ((T.lead l).ham i j) = (T.lead l).ham i j
  hop : ∀ l i j, star ((T.lead l).hop i j) = (T.lead l).hop i j

theorem reversedField_real (hr : T.Real) : T.reversedField (fun l => ((T.lead l).projectors, (T.lead l).sy)) = T := by
  have h1 : (fun α β => star (T.ham.val α β)) = T.ham.val := by
    funext α β
    exact hr.region α β
  have h2 : (fun l => (⟨(T.lead l).ham.map star, (T.lead l).hop.map star, (T.lead l).projectors, (T.lead l).sy⟩ : LeadHam (T.lead l).n (T.lead l).m)) = T.data := by
    funext l
    have a1 : (T.lead l).ham.map star = (T.lead l).ham := by
      ext i j
      exact hr.cell l i j
    have a2 : (T.lead l).hop.map star = (T.lead l).hop := by
      ext i j
      exact hr.hop l i j
    rw [a1, a2]
    rfl
  unfold Open.reversedField
  rw [h1, h2]
  exact T.withHam_self

/-- C188: if the system is mapped to itself by a time-reversal symmetry, the transmissions in both directions agree. -/
theorem C188_symmetric (hS : SymMap true false T T.ham.val T.data u R Rm) (hT : T.Ok) (hB : BasisOk E B) {S : FullS} (h : IsSmatrix E B S) (l k : Fin T.N) :
    trans B.num S l k = trans B.num S k l := by
  have he : eta false * E = E := by simp [eta]
  have hB2 : BasisOk (T := T.withHam T.ham.val T.data) (eta false * E) B := by rw [he]; exact hB
  have h2 : IsSmatrix (T := T.withHam T.ham.val T.data) (eta false * E) B S := by rw [he]; exact h
  exact C188_reversed hS hT hT hB hB2 (by decide) h h2 l k

/-- C188: without magnetic field and spin, the transmissions in both directions agree. -/
theorem C188_real (hT : T.Ok) (hr : T.Real) (hB : BasisOk E B) {S : FullS} (h : IsSmatrix E B S) (l k : Fin T.N) : trans B.num S l k = trans B.num S k l := by
  refine C188_symmetric (u := fun α β => if α = β then 1 else 0) (R := fun _ => 1) (Rm := fun _ => 1) ?_ hT hB h l k
  have h1 := reversedField_sym (pr := fun l => ((T.lead l).projectors, (T.lead l).sy)) hT
  have h2 : (fun α β => star (T.ham.val α β)) = T.ham.val := by
    funext α β
    exact hr.region α β
  have h3 : (fun l => (⟨(T.lead l).ham.map star, (T.lead l).hop.map star, (T.lead l).projectors, (T.lead l).sy⟩ : LeadHam (T.lead l).n (T.lead l).m)) = T.data := by
    funext l
    have a1 : (T.lead l).ham.map star = (T.lead l).ham := by
      ext i j
      exact hr.cell l i j
    have a2 : (T.lead l).hop.map star = (T.lead l).hop := by
      ext i j
      exact hr.hop l i j
    rw [a1, a2]
    rfl
  rw [h2, h3] at h1
  exact h1

/-- C188: with chiral symmetry (`neg`, unitary) or particle-hole symmetry (`neg`, antiunitary), the transmissions at `E` and `-E` are related. -/
theorem C188_opposite_energy (hS : SymMap c true T T.ham.val T.data u R Rm) (hT : T.Ok) {Bm : LeadBasis T} (hB : BasisOk E B) (hBm : BasisOk (-E) Bm) {S Sm : FullS} (h : IsSmatrix E B S)
    (hm : IsSmatrix (-E) Bm Sm) (l k : Fin T.N) : trans Bm.num Sm l k = if c then trans B.num S l k else trans B.num S k l := by
  have he : eta true * E = -E := by simp [eta]
  have hB2 : BasisOk (T := T.withHam T.ham.val T.data) (eta true * E) Bm := by rw [he]; exact hBm
  have h2 : IsSmatrix (T := T.withHam T.ham.val T.data) (eta true * E) Bm Sm := by rw [he]; exact hm
  cases c
  · exact C188_reversed hS hT hT hB hB2 (by decide) h h2 l k
  · exact C188_preserved hS hT hT hB hB2 rfl h h2 l k

/-! ### Example -/

/-- A matrix that acts on the two orbitals of the example. -/
theorem exSymOf (c g : Bool) (W : Matrix (Fin 2) (Fin 2) ℂ) (hun : Wᴴ * W = 1) (hH : W * (!![0, 1; 1, 0] : Matrix (Fin 2) (Fin 2) ℂ) = (eta g : ℂ) • (!![0, 1; 1, 0] * W))
    (hhop : W * trHop.map (kap c) = (eta g : ℂ) • (trHop * W)) : SymMap c g exOpen exOpen.ham.val exOpen.data (toMat W).val (fun _ => W) (fun _ => W) := by
  have hv : ∀ (i j : Fin 2), (toMat W).val i j = W i j := fun i j => toMat_val W i j
  constructor
  · intro l; exact hun
  · intro l; exact hun
  · intro α hα β hβ
    change α < 2 at hα
    change β < 2 at hβ
    change ∑ γ ∈ range 2, (toMat W).val α γ * kap c (if γ = β then 0 else 1) = ((eta g : ℝ) : ℂ) * ∑ γ ∈ range 2, (if α = γ then (0 : ℂ) else 1) * (toMat W).val γ β
    have h1 := congrFun (congrFun hH ⟨α, hα⟩) ⟨β, hβ⟩
    rw [Matrix.smul_apply, mul_apply, mul_apply] at h1
    rw [Finset.sum_range, Finset.sum_range]
    have a1 : ∑ γ : Fin 2, (toMat W).val α γ * kap c (if (γ : ℕ) = β then 0 else 1) = ∑ γ : Fin 2, W ⟨α, hα⟩ γ * (!![0, 1; 1, 0] : Matrix (Fin 2) (Fin 2) ℂ) γ ⟨β, hβ⟩ := by
      refine Finset.sum_congr rfl fun γ _ => ?_
      rw [← hv]
      congr 1
      interval_cases β <;> fin_cases γ <;> simp
    have a2 : ∑ γ : Fin 2, (if α = γ then (0 : ℂ) else 1) * (toMat W).val γ β = ∑ γ : Fin 2, (!![0, 1; 1, 0] : Matrix (Fin 2) (Fin 2) ℂ) ⟨α, hα⟩ γ * W γ ⟨β, hβ⟩ := by
      refine Finset.sum_congr rfl fun γ _ => ?_
      rw [← hv]
      congr 1
      interval_cases α <;> fin_cases γ <;> simp
    rw [a1, a2]
    exact h1
  · intro l
    change W * (0 : Matrix (Fin 2) (Fin 2) ℂ).map (kap c) = (eta g : ℂ) • ((0 : Matrix (Fin 2) (Fin 2) ℂ) * (W : Matrix (Fin 2) (Fin 2) ℂ) : Matrix (Fin 2) (Fin 2) ℂ)
    have z1 : (0 : Matrix (Fin 2) (Fin 2) ℂ).map (kap c) = 0 := Matrix.map_zero _ (map_zero _)
    have z2 : (0 : Matrix (Fin 2) (Fin 2) ℂ) * W = 0 := Matrix.zero_mul _
    have z3 : W * (0 : Matrix (Fin 2) (Fin 2) ℂ) = 0 := Matrix.mul_zero _
    rw [z1, z3]
    refine Eq.symm (Eq.trans (congrArg (fun X : Matrix (Fin 2) (Fin 2) ℂ => (eta g : ℂ) • X) z2) (smul_zero _))
  · intro l
    change W * (padHop trHop : Matrix (Fin 2) (Fin 2) ℂ).map (kap c) = (eta g : ℂ) • ((padHop trHop : Matrix (Fin 2) (Fin 2) ℂ) * W)
    rw [trPad]
    exact hhop
  · intro l
    exact hhop
  · intro l α hα q
    change α < 2 at hα
    change Fin 2 at q
    change (toMat W).val α (([0, 1] : List ℕ).getD q 0) = ∑ p : Fin 2, if ([0, 1] : List ℕ)[(p : ℕ)]? = some α then W p q else 0
    have h1 : ([0, 1] : List ℕ).getD q 0 = q := by fin_cases q <;> rfl
    rw [h1, hv ⟨α, hα⟩ q]
    interval_cases α <;> simp [Fin.sum_univ_two]
  · intro l p β hβ
    change β < 2 at hβ
    change Fin 2 at p
    change (toMat W).val (([0, 1] : List ℕ).getD p 0) β = ∑ q : Fin 2, if ([0, 1] : List ℕ)[(q : ℕ)]? = some β then W p q else 0
    have h1 : ([0, 1] : List ℕ).getD p 0 = p := by fin_cases p <;> rfl
    rw [h1, hv p ⟨β, hβ⟩]
    interval_cases β <;> simp [Fin.sum_univ_two]

/-- The system of the example of C116, with complex hoppings, has the time-reversal symmetry `σ_x K`. -/
theorem exTimeReversal : SymMap true false exOpen exOpen.ham.val exOpen.data (toMat !![0, 1; 1, 0]).val (fun _ => !![0, 1; 1, 0]) (fun _ => !![0, 1; 1, 0]) := by
  have he : ((eta false : ℝ) : ℂ) = 1 := by simp [eta]
  refine exSymOf true false _ ?_ ?_ ?_
  · ext i j
    fin_cases i <;> fin_cases j <;> simp [mul_apply, Fin.sum_univ_two]
  · rw [he, one_smul]
  · rw [he, one_smul]
    ext i j
    fin_cases i <;> fin_cases j <;> simp [trHop, mul_apply, Fin.sum_univ_two, kap_true]

/-- It has the particle-hole symmetry `σ_z K`. -/
theorem exParticleHole : SymMap true true exOpen exOpen.ham.val exOpen.data (toMat !![1, 0; 0, -1]).val (fun _ => !![1, 0; 0, -1]) (fun _ => !![1, 0; 0, -1]) := by
  have he : ((eta true : ℝ) : ℂ) = -1 := by simp [eta]
  refine exSymOf true true _ ?_ ?_ ?_
  · ext i j
    fin_cases i <;> fin_cases j <;> simp [mul_apply, Fin.sum_univ_two]
  · rw [he]
    ext i j
    fin_cases i <;> fin_cases j <;> simp [mul_apply, Fin.sum_univ_two]
  · rw [he]
    ext i j
    fin_cases i <;> fin_cases j <;> simp [trHop, mul_apply, Fin.sum_univ_two, kap_true]

/-- It has the chiral symmetry `σ_y`. -/
theorem exChiral : SymMap false true exOpen exOpen.ham.val exOpen.data (toMat !![0, -I; I, 0]).val (fun _ => !![0, -I; I, 0]) (fun _ => !![0, -I; I, 0]) := by
  have he : ((eta true : ℝ) : ℂ) = -1 := by simp [eta]
  refine exSymOf false true _ ?_ ?_ ?_
  · ext i j
    fin_cases i <;> fin_cases j <;> simp [mul_apply, Fin.sum_univ_two]
  · rw [he]
    ext i j
    fin_cases i <;> fin_cases j <;> simp [mul_apply, Fin.sum_univ_two]
  · rw [he]
    ext i j
    fin_cases i <;> fin_cases j <;> simp [trHop, mul_apply, Fin.sum_univ_two, kap_false]

/-- The example meets the hypotheses, and its transmissions are symmetric. -/
theorem C188_example : ∃ (B : LeadBasis exOpen) (S : FullS), BasisOk 0 B ∧ IsSmatrix 0 B S ∧ trans B.num S 0 1 = trans B.num S 1 0 := by
  obtain ⟨hT, _, _, M, hM, h⟩ := C116_example
  obtain ⟨_, _, _, _, _, sg, hB, S, hS⟩ := h fun _ => 0
  exact ⟨⟨M, sg⟩, S, hB, hS, C188_symmetric exTimeReversal hT hB hS (0 : Fin 2) (1 : Fin 2)⟩

end Kwant.Scatt
