import Verif.Scatt.AddCell
import Verif.Scatt.Ex

/-!
C191: moving a cell of a lead into the scattering region multiplies the elements of the scattering matrix with phases.
-/

set_option linter.unusedSectionVars false

namespace Kwant.Scatt
open Finset Complex Filter
open Matrix hiding mulVec
open Kwant.Leads hiding Modes
open Kwant.Solver hiding transmission LErr mulVec

variable {T : Open} {E : ℝ} {l : Fin T.N} {cell : List ℕ} {k : ℕ}

/-- The phase of a mode over one cell, for the modes of lead `l`. -/
noncomputable def cellPhase {T : Open} (B : LeadBasis T) (l x : Fin T.N) (i : Fin (B.M x).p ⊕ Fin (B.M x).p) : ℂ := if x = l then cexp (I * (B.M x).mom i) else 1

/-- The modes do not change. -/
@[reducible] def LeadBasis.addCell {T : Open} (B : LeadBasis T) (l : Fin T.N) (cell : List ℕ) (k : ℕ) : LeadBasis (T.addCell l cell k) := ⟨B.M, B.sg⟩

theorem BasisOk.addCell {B : LeadBasis T} (hB : BasisOk E B) : BasisOk E (B.addCell l cell k) := ⟨hB.herm, hB.spec, hB.incoming, hB.outgoing, hB.number, hB.size⟩

theorem cellPhase_norm (B : LeadBasis T) (l x : Fin T.N) (i) : normSq (cellPhase B l x i) = 1 := by
  unfold cellPhase
  split
  · rw [normSq_eq_norm_sq, mul_comm, norm_exp_ofReal_mul_I, one_pow]
  · exact normSq_one

theorem cellPhase_ne (B : LeadBasis T) (l x : Fin T.N) (i) : cellPhase B l x i ≠ 0 := by
  intro h
  have := cellPhase_norm B l x i
  rw [h, normSq_zero] at this
  exact zero_ne_one this

theorem asymp_shift (B : LeadBasis T) (l x : Fin T.N) {a : Fin (B.M x).p ⊕ Fin (B.M x).p → ℂ} {Ψ : (x : Fin T.N) → ℕ → Fin (T.lead x).n → ℂ} (h : Asymp (B.M x) (B.sg x) a (Ψ x)) :
    Asymp (B.M x) (B.sg x) (fun i => cellPhase B l x i * a i) (shiftWave T l Ψ x) := by
  unfold Asymp at h ⊢
  by_cases hx : x = l
  · have h1 := h.comp (tendsto_add_atTop_nat 1)
    refine h1.congr fun j => ?_
    simp only [Function.comp, shiftWave, cellPhase, if_pos hx]
    congr 1
    refine Finset.sum_congr rfl fun i _ => ?_
    congr 1
    have e1 : I * ((B.M x).mom i : ℂ) * (((j + 1 : ℕ) : ℂ) + 1) = I * ((B.M x).mom i : ℂ) + I * ((B.M x).mom i : ℂ) * ((j : ℂ) + 1) := by
      push_cast
      ring
    rw [e1, Complex.exp_add]
    ring
  · refine h.congr fun j => ?_
    simp only [shiftWave, cellPhase, if_neg hx, add_zero, one_mul]

theorem InfWave.smul {ψ : ℕ → ℂ} {Ψ : (l : Fin T.N) → ℕ → Fin (T.lead l).n → ℂ} (hw : InfWave T E ψ Ψ) (z : ℂ) : InfWave T E (fun α => z * ψ α) (fun l j => z • Ψ l j) := by
  have ha : ∀ x, T.amp (fun α => z * ψ α) x = z • T.amp ψ x := fun x => rfl
  refine ⟨fun α hα => ?_, fun x => ⟨?_, fun j => ?_⟩⟩
  · have h1 := congrArg (fun w => z * w) (hw.region α hα)
    simp only [mul_zero] at h1
    rw [← h1, mul_add, mul_sub, Finset.mul_sum, Finset.mul_sum]
    have e1 : ∀ x, T.fromLead x ((T.lead x).hopᴴ *ᵥ z • Ψ x 0) α = z * T.fromLead x ((T.lead x).hopᴴ *ᵥ Ψ x 0) α := fun x => by
      rw [Matrix.mulVec_smul, fromLead_smul]
    rw [Finset.sum_congr rfl fun x _ => e1 x, Finset.sum_congr rfl fun β _ => mul_left_comm (T.ham.val α β) z (ψ β)]
    ring
  · have h1 := congrArg (fun w => z • w) (hw.lead x).first
    simp only [smul_zero, smul_add] at h1
    rw [ha, Matrix.mulVec_smul, Matrix.mulVec_smul, Matrix.mulVec_smul]
    exact h1
  · have h1 := congrArg (fun w => z • w) ((hw.lead x).bulk j)
    simp only [smul_zero, smul_add] at h1
    rw [Matrix.mulVec_smul, Matrix.mulVec_smul, Matrix.mulVec_smul]
    exact h1

theorem Asymp.smul {n m : ℕ} {M : LeadModes n m} {sg a : Fin M.p ⊕ Fin M.p → ℂ} {Ψ : ℕ → Fin n → ℂ} (h : Asymp M sg a Ψ) (z : ℂ) : Asymp M sg (fun i => z * a i) (fun j => z • Ψ j) := by
  unfold Asymp at h ⊢
  have h1 := h.const_smul z
  rw [smul_zero] at h1
  refine h1.congr fun j => ?_
  rw [smul_sub, Finset.smul_sum]
  congr 1
  refine Finset.sum_congr rfl fun i _ => ?_
  rw [smul_smul]
  congr 1
  ring

/-- C191: the scattering matrix of the larger system, from that of the smaller one. -/
theorem C191_smatrix (hT : T.Ok) (hc : CellSites T l cell k) {B : LeadBasis T} (hB : BasisOk E B) {S S' : FullS} (h : IsSmatrix E B S) (h' : IsSmatrix E (B.addCell l cell k) S')
    (x y : Fin T.N) (a : Fin (B.M x).p) (b : Fin (B.M y).p) : S' x a y b * cellPhase B l y (.inl b) = cellPhase B l x (.inr a) * S x a y b := by
  obtain ⟨ψ, Ψ, hw⟩ := h y b b.2
  have h7 := C189_out_of_in (B := B.addCell l cell k) (addCell_ok hT hc) (hB.addCell) h' ((C191_waves hT hc ψ Ψ).mp hw.1) (fun z => asymp_shift B l z (hw.2 z)) x a
  simp only [Sum.elim_inl, Sum.elim_inr] at h7
  have e1 : ∀ z : Fin T.N, ∑ i : Fin (B.M z).p, S' x a z i * (cellPhase B l z (.inl i) * (if z = y ∧ (i : ℕ) = b then 1 else 0)) =
      ∑ i : Fin (B.M z).p, (if z = y ∧ (i : ℕ) = b then 1 else 0) * (S' x a z i * cellPhase B l z (.inl i)) := fun z => Finset.sum_congr rfl fun i _ => by ring
  have h8 : cellPhase B l x (.inr a) * S x a y b = ∑ z : Fin T.N, ∑ i : Fin (B.M z).p, S' x a z i * (cellPhase B l z (.inl i) * (if z = y ∧ (i : ℕ) = b then 1 else 0)) := h7
  rw [Finset.sum_congr rfl fun z _ => e1 z, sum_delta (p := fun z => (B.M z).p) y b fun z i => S' x a z i * cellPhase B l z (.inl i)] at h8
  exact h8.symm

/-- C191: if the smaller system has a scattering matrix, the larger one has. -/
theorem C191_exists (hT : T.Ok) (hc : CellSites T l cell k) {B : LeadBasis T} {S : FullS} (h : IsSmatrix E B S) : ∃ S', IsSmatrix E (B.addCell l cell k) S' := by
  have key : ∀ (y : Fin T.N) (b : ℕ) (hb : b < (B.M y).p), ∃ s ψ Ψ, ScattWave E (B.addCell l cell k) y b s ψ Ψ := by
    intro y b hb
    obtain ⟨ψ, Ψ, hw⟩ := h y b hb
    refine ⟨fun x a => if hx : x < T.N then (if ha : a < (B.M ⟨x, hx⟩).p then (cellPhase B l y (.inl ⟨b, hb⟩))⁻¹ * (cellPhase B l ⟨x, hx⟩ (.inr ⟨a, ha⟩) * S x a y b) else 0) else 0, _, _,
      InfWave.smul ((C191_waves hT hc ψ Ψ).mp hw.1) (cellPhase B l y (.inl ⟨b, hb⟩))⁻¹, fun x => ?_⟩
    change Fin T.N at x
    have h1 := (asymp_shift B l x (hw.2 x)).smul (cellPhase B l y (.inl ⟨b, hb⟩))⁻¹
    refine (congrArg (fun a => Asymp (B.M x) (B.sg x) a _) ?_).mp h1
    funext i
    rcases i with i | i
    · simp only [Sum.elim_inl]
      by_cases hx : x = y ∧ (i : ℕ) = b
      · obtain ⟨rfl, hi⟩ := hx
        have hi' : i = ⟨b, hb⟩ := Fin.ext hi
        subst hi'
        rw [if_pos ⟨rfl, rfl⟩, mul_one]
        exact inv_mul_cancel₀ (cellPhase_ne B l x _)
      · rw [if_neg hx, mul_zero, mul_zero]
    · simp only [Sum.elim_inr]
      rw [dif_pos x.2]
      have hi : (i : ℕ) < (B.M ⟨x, x.2⟩).p := i.2
      rw [dif_pos hi]
  choose s ψ Ψ hw using key
  refine ⟨fun x a y b => if hy : y < T.N then (if hb : b < (B.M ⟨y, hy⟩).p then s ⟨y, hy⟩ b hb x a else 0) else 0, fun y b hb => ⟨ψ y b hb, Ψ y b hb, ?_⟩⟩
  have h1 := hw y b hb
  have h2 : (fun (x a : ℕ) => if hy : (y : ℕ) < T.N then (if hb : b < (B.M ⟨y, hy⟩).p then s ⟨y, hy⟩ b hb x a else 0) else 0) = s y b hb := by
    ext x a
    have hy : (y : ℕ) < T.N := y.2
    rw [dif_pos hy]
    exact dif_pos hb
  change ScattWave E (B.addCell l cell k) y b (fun (x a : ℕ) => if hy : (y : ℕ) < T.N then (if hb : b < (B.M ⟨y, hy⟩).p then s ⟨y, hy⟩ b hb x a else 0) else 0) (ψ y b hb) (Ψ y b hb)
  rw [h2]
  exact h1

/-- C191: the transmissions do not change. -/
theorem C191_transmission (hT : T.Ok) (hc : CellSites T l cell k) {B : LeadBasis T} (hB : BasisOk E B) {S S' : FullS} (h : IsSmatrix E B S) (h' : IsSmatrix E (B.addCell l cell k) S')
    (x y : Fin T.N) : trans B.num S' x y = trans B.num S x y := by
  have hnum : ∀ x : Fin T.N, B.num x = (B.M x).p := fun x => dif_pos x.2
  unfold Solver.trans
  simp only [hnum, Finset.sum_range]
  refine Finset.sum_congr rfl fun a _ => Finset.sum_congr rfl fun b _ => ?_
  have h1 := congrArg normSq (C191_smatrix hT hc hB h h' x y a b)
  rw [normSq_mul, normSq_mul, cellPhase_norm, cellPhase_norm, mul_one, one_mul] at h1
  exact h1

/-- C191: there is a bound state in one system if and only if there is one in the other. -/
theorem C191_bound (hT : T.Ok) (hc : CellSites T l cell k) : NoBoundState (T.addCell l cell k) E ↔ NoBoundState T E := by
  constructor
  · intro hn ψ Ψ hw hd
    obtain ⟨h1, h2⟩ := hn _ _ ((C191_waves hT hc ψ Ψ).mp hw) (fun x => (hd x).comp (tendsto_add_atTop_nat (if x = l then 1 else 0)))
    have h3 : ∀ j, Ψ l (j + 1) = 0 := by
      intro j
      have h4 : Ψ l (j + if l = l then 1 else 0) = 0 := h2 l j
      rw [if_pos rfl] at h4
      exact h4
    have h0 : Ψ l 0 = 0 := by
      ext i
      have h4 := h1 (T.ham.rows + i) (Nat.add_lt_add_left i.2 _)
      rw [ext_high] at h4
      exact h4
    refine ⟨fun α hα => ?_, fun x j => ?_⟩
    · have h4 := h1 α (lt_of_lt_of_le hα (Nat.le_add_right _ _))
      rw [ext_low _ _ hα] at h4
      exact h4
    · by_cases hx : x = l
      · subst hx
        cases j with
        | zero => exact h0
        | succ j => exact h3 j
      · have h4 : Ψ x (j + if x = l then 1 else 0) = 0 := h2 x j
        rw [if_neg hx] at h4
        exact h4
  · intro hn ψ' Ψ' hw hd
    change (x : Fin T.N) → ℕ → Fin (T.lead x).n → ℂ at Ψ'
    -- the wave of the smaller system
    let v : Fin (T.lead l).n → ℂ := fun i => ψ' (T.ham.rows + i)
    let Ψ : (x : Fin T.N) → ℕ → Fin (T.lead x).n → ℂ := fun x j => if hx : x = l then (match j with | 0 => hx ▸ v | j + 1 => Ψ' x j) else Ψ' x j
    have e1 : Ψ l 0 = v := dif_pos rfl
    have e2 : ∀ j, Ψ l (j + 1) = Ψ' l j := fun j => dif_pos rfl
    have e3 : ∀ x, x ≠ l → Ψ x = Ψ' x := fun x hx => funext fun j => dif_neg hx
    have e4 : shiftWave T l Ψ = Ψ' := by
      funext x j
      by_cases hx : x = l
      · subst hx
        rw [shiftWave, if_pos rfl]
        exact e2 j
      · rw [shiftWave, if_neg hx, add_zero, e3 x hx]
    have e5 : ∀ α < T.ham.rows + (T.lead l).n, extRegion T l ψ' (Ψ l 0) α = ψ' α := by
      intro α hα
      by_cases h : α < T.ham.rows
      · exact ext_low _ _ h
      · obtain ⟨i, rfl⟩ := Nat.exists_eq_add_of_le (not_lt.mp h)
        have := ext_high ψ' (Ψ l 0) ⟨i, by omega⟩
        rw [e1] at this ⊢
        exact this
    have hw' : InfWave (T.addCell l cell k) E (extRegion T l ψ' (Ψ l 0)) (shiftWave T l Ψ) := by
      rw [e4]
      have hOk := addCell_ok hT hc
      refine ⟨fun α hα => ?_, fun x => ?_⟩
      · have h1 := hw.region α hα
        rw [e5 α hα]
        refine (congrArg (fun z => z - E * ψ' α + _) ?_).trans h1
        refine Finset.sum_congr rfl fun β hβ => ?_
        rw [e5 β (Finset.mem_range.mp hβ)]
      · have h1 := hw.lead x
        have h2 : (T.addCell l cell k).amp (extRegion T l ψ' (Ψ l 0)) x = (T.addCell l cell k).amp ψ' x := by
          ext p
          refine e5 _ ?_
          have hp : (p : ℕ) < ((T.addCell l cell k).iface x).length := by
            rw [hOk.width x]
            exact p.2
          rw [List.getD_eq_getElem?_getD, List.getElem?_eq_getElem hp, Option.getD_some]
          exact iface_lt hOk x (List.getElem?_eq_getElem hp)
        rw [h2]
        exact h1
    have hdd : ∀ x, Tendsto (Ψ x) atTop (nhds 0) := by
      intro x
      by_cases hx : x = l
      · subst hx
        refine (tendsto_add_atTop_iff_nat 1).mp ?_
        have h2 : (fun j => Ψ x (j + 1)) = Ψ' x := funext e2
        rw [h2]
        exact hd x
      · rw [e3 x hx]
        exact hd x
    obtain ⟨h1, h2⟩ := hn ψ' Ψ ((C191_waves hT hc ψ' Ψ).mpr hw') hdd
    refine ⟨fun α hα => ?_, fun x j => ?_⟩
    · change α < T.ham.rows + (T.lead l).n at hα
      by_cases h : α < T.ham.rows
      · exact h1 α h
      · obtain ⟨i, rfl⟩ := Nat.exists_eq_add_of_le (not_lt.mp h)
        have h3 := congrFun (h2 l 0) ⟨i, by omega⟩
        rw [e1] at h3
        exact h3
    · change Fin T.N at x
      change Ψ' x j = 0
      rw [← e4]
      exact h2 x _

/-! ### Any number of cells -/

/-- `T'` is `T`, with any number of cells of the leads moved to the scattering region. -/
inductive Moved : (T : Open) → LeadBasis T → (T' : Open) → LeadBasis T' → Prop
  | refl (T : Open) (B : LeadBasis T) : Moved T B T B
  | cell {T : Open} {B : LeadBasis T} {T' : Open} {B' : LeadBasis T'} (l : Fin T'.N) (cell : List ℕ) (k : ℕ) : Moved T B T' B' → CellSites T' l cell k →
      Moved T B (T'.addCell l cell k) (B'.addCell l cell k)

/-- C191: any number of cells of any leads can be made a part of the scattering region: the result is a system with as many leads and modes, bound states at the same energies, and the same
transmissions. -/
theorem C191_many {T T' : Open} {B : LeadBasis T} {B' : LeadBasis T'} (hm : Moved T B T' B') (hT : T.Ok) (hB : BasisOk E B) : T'.Ok ∧ BasisOk E B' ∧ T'.N = T.N ∧ B'.num = B.num ∧
    (NoBoundState T' E ↔ NoBoundState T E) ∧ ((∃ S, IsSmatrix E B S) → ∃ S', IsSmatrix E B' S') ∧
    ∀ S S', IsSmatrix E B S → IsSmatrix E B' S' → ∀ x < T.N, ∀ y < T.N, trans B'.num S' x y = trans B.num S x y := by
  induction hm with
  | refl =>
    refine ⟨hT, hB, rfl, rfl, Iff.rfl, id, fun S S' h h' x hx y hy => ?_⟩
    have hnum : ∀ x : Fin T.N, B.num x = (B.M x).p := fun x => dif_pos x.2
    have e : ∀ (x y : Fin T.N) (a : Fin (B.M x).p) (b : Fin (B.M y).p), S' x a y b = S x a y b := by
      intro x y a b
      obtain ⟨ψ, Ψ, hw⟩ := h y b b.2
      obtain ⟨ψ', Ψ', hw'⟩ := h' y b b.2
      exact scatt_unique hT hB hw' hw x a a.2
    have key : ∀ x y : Fin T.N, trans B.num S' x y = trans B.num S x y := by
      intro x y
      unfold Solver.trans
      simp only [hnum, Finset.sum_range]
      exact Finset.sum_congr rfl fun a _ => Finset.sum_congr rfl fun b _ => congrArg normSq (e x y a b)
    exact key ⟨x, hx⟩ ⟨y, hy⟩
  | cell l cell k hm hc ih =>
    obtain ⟨i1, i2, i3, i4, i5, i6, i7⟩ := ih
    refine ⟨addCell_ok i1 hc, i2.addCell, i3, i4, (C191_bound i1 hc).trans i5, fun hS => ?_, fun S S' h h' x hx y hy => ?_⟩
    · obtain ⟨S', hS'⟩ := i6 hS
      exact C191_exists i1 hc hS'
    · obtain ⟨S'', hS''⟩ := i6 ⟨S, h⟩
      rw [← i7 S S'' h hS'' x hx y hy]
      exact C191_transmission i1 hc i2 hS'' h' ⟨x, by rw [i3]; exact hx⟩ ⟨y, by rw [i3]; exact hy⟩

/-- C191: what `smatrix` returns for the two systems gives the same transmissions. -/
theorem C191_returned {e : ModesNum} (hT : T.Ok) (hc : CellSites T l cell k) (ho : LeadsOk e T E) {M : (x : Fin T.N) → LeadModes (T.lead x).n (T.lead x).m} (hM : Computed e T E M)
    (hn : NoBoundState T E) (hif : ∀ x, (T.lead x).interface ≠ []) (hhop : ∀ x, (T.lead x).hop ≠ 0) (Sig Sig') {oL iL oL' iL' : Option (List ℕ)} {check check' : Bool} {ls ls' : LinearSys ℂ}
    {kv kv' o o' i i' : List ℕ} (h : smatrixSetup (T.toSys M Sig) (E : ℂ) oL iL check = .ok (ls, kv, o, i))
    (h' : smatrixSetup ((T.addCell l cell k).toSys M Sig') (E : ℂ) oL' iL' check' = .ok (ls', kv', o', i')) {X X' : ℕ → ℕ → ℂ} (hX : Solves ls X) (hX' : Solves ls' X') {s s' : SMat}
    (hdata : ∀ p c r, kv[p]? = some r → s.data p c = X r c) (hdata' : ∀ p c r, kv'[p]? = some r → s'.data p c = X' r c)
    (hN : s.nLeads = T.N) (hso : s.outLeads = o) (hsi : s.inLeads = i) (hsz : ∀ x : Fin T.N, s.sizes x = (M x).p) (hsz0 : ∀ x, T.N ≤ x → s.sizes x = 0)
    (hN' : s'.nLeads = T.N) (hso' : s'.outLeads = o') (hsi' : s'.inLeads = i') (hsz' : s'.sizes = s.sizes)
    {x y : ℕ} (hx : x < T.N) (hy : y < T.N) (hio : x ∈ o ∨ y ∈ i) (hio' : x ∈ o' ∨ y ∈ i') {t t' : ℝ} (ht : Solver.transmission s x y = .ok t) (ht' : Solver.transmission s' x y = .ok t') : t' = t := by
  obtain ⟨_, _, _, _, _, sg, _, hB, S, hS⟩ := C116_succeeds hT ho hM hn hif hhop Sig (o := [x]) (i := [y]) (by simp) (by simp) (by simp) (by simp) (by simp [hx, hy]) check
  obtain ⟨S', hS'⟩ := C191_exists hT hc hS
  have e0 : s.sizes = (LeadBasis.mk M sg).num := by
    funext j
    by_cases hj : j < T.N
    · rw [LeadBasis.num, dif_pos hj]
      exact hsz ⟨j, hj⟩
    · rw [LeadBasis.num, dif_neg hj]
      exact hsz0 j (not_lt.mp hj)
  have e1 := smatrix_part hT hB Sig h (.inl hhop) hX hS hdata hN hso hsi e0
  have hOk := addCell_ok hT hc
  have hB' : BasisOk E ((LeadBasis.mk M sg).addCell l cell k) := hB.addCell
  have e2 : PartOf s' S' := smatrix_part (T := T.addCell l cell k) (sg := sg) hOk hB' Sig' h' (.inl hhop) hX' hS' hdata' hN' hso' hsi' (hsz'.trans e0)
  have e3 := C116_transmission hT hB hS e1 hN e0 hx hy (by rw [hso, hsi]; exact hio) ht
  have e4 := C116_transmission (T := T.addCell l cell k) hOk hB' hS' e2 hN' (hsz'.trans e0) hx hy (by rw [hso', hsi']; exact hio') ht'
  rw [e3, e4]
  exact C191_transmission hT hc hB hS hS' ⟨x, hx⟩ ⟨y, hy⟩

/-! ### Example -/

/-- C191: a cell with one site with two orbitals can be added to the example of C116, and the result has a scattering matrix. -/
theorem C191_example : ∃ hc : CellSites exOpen (0 : Fin 2) [2] 1, exOpen.Ok ∧ ∃ B : LeadBasis exOpen, BasisOk 0 B ∧ NoBoundState (exOpen.addCell (0 : Fin 2) [2] 1) 0 ∧
    ∃ S S', IsSmatrix 0 B S ∧ IsSmatrix 0 (B.addCell (0 : Fin 2) [2] 1) S' ∧ (∀ α β, (exOpen.addCell (0 : Fin 2) [2] 1).ham.val α β = exOpen.cellHam (0 : Fin 2) α β) ∧
    exOpen.cellHam (0 : Fin 2) 2 0 = I := by
  have hc : CellSites exOpen (0 : Fin 2) [2] 1 := ⟨rfl, by simp, rfl, by
    change (0 : Matrix (Fin 2) (Fin 2) ℂ)ᴴ = 0
    exact conjTranspose_zero⟩
  obtain ⟨hT, _, hn, M, hM, hx⟩ := C116_example
  obtain ⟨_, _, _, _, _, sg, hB, S, hS⟩ := hx fun _ => 0
  obtain ⟨S', hS'⟩ := C191_exists hT hc hS
  refine ⟨hc, hT, ⟨M, sg⟩, hB, (C191_bound hT hc).mpr hn, S, S', hS, hS', fun _ _ => rfl, ?_⟩
  have h1 : exOpen.cellHam (0 : Fin 2) 2 0 = exOpen.fromLead (0 : Fin 2) (fun p => (toMat trHop).val (2 - 2) p) 0 := (if_neg (lt_irrefl 2)).trans (if_pos (by decide : 0 < 2))
  rw [h1]
  change (∑ p : Fin 2, if ([0, 1] : List ℕ)[(p : ℕ)]? = some 0 then (toMat trHop).val 0 p else 0) = I
  simp [Fin.sum_univ_two, toMat, trHop]

end Kwant.Scatt
