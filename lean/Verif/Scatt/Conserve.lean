import Verif.Scatt.SymBasis
import Verif.Scatt.Regular
import Verif.Scatt.Ex

/-!
C190: a conserved quantity makes the scattering matrix block diagonal.
-/

set_option linter.unusedSectionVars false

namespace Kwant.Scatt
open Finset Complex Filter
open Matrix hiding mulVec
open Kwant.Leads hiding Modes
open Kwant.Solver hiding transmission LErr mulVec

variable {T : Open} {E : ℝ} {B : LeadBasis T}

/-! ### Specification -/

/-- A conserved quantity: a Hermitian operator that commutes with the Hamiltonian of the infinite system.  In the scattering region it is `q`, in each cell of lead `l` it is `Q l`, and on
the orbitals of the region to which lead `l` is attached it is `Qm l`. -/
structure Conserved (T : Open) (q : ℕ → ℕ → ℂ) (Q : (l : Fin T.N) → Matrix (Fin (T.lead l).n) (Fin (T.lead l).n) ℂ)
    (Qm : (l : Fin T.N) → Matrix (Fin (T.lead l).m) (Fin (T.lead l).m) ℂ) : Prop where
  herm : ∀ l, (Q l)ᴴ = Q l
  hermM : ∀ l, (Qm l)ᴴ = Qm l
  region : ∀ α < T.ham.rows, ∀ β < T.ham.rows, ∑ γ ∈ range T.ham.rows, q α γ * T.ham.val γ β = ∑ γ ∈ range T.ham.rows, T.ham.val α γ * q γ β
  cell : ∀ l, Q l * (T.lead l).ham = (T.lead l).ham * Q l
  hop : ∀ l, Q l * padHop (T.lead l).hop = padHop (T.lead l).hop * Q l
  attach : ∀ l, Q l * (T.lead l).hop = (T.lead l).hop * Qm l
  /-- `q` does not mix the orbitals of the interface with others, and is `Qm` on them. -/
  into : ∀ l, ∀ α < T.ham.rows, ∀ p : Fin (T.lead l).m, q α ((T.iface l).getD p 0) = ∑ p' : Fin (T.lead l).m, if (T.iface l)[(p' : ℕ)]? = some α then Qm l p' p else 0
  onto : ∀ l, ∀ p : Fin (T.lead l).m, ∀ β < T.ham.rows, q ((T.iface l).getD p 0) β = ∑ p' : Fin (T.lead l).m, if (T.iface l)[(p' : ℕ)]? = some β then Qm l p p' else 0

/-! ### Proofs -/

variable {q : ℕ → ℕ → ℂ} {Q : (l : Fin T.N) → Matrix (Fin (T.lead l).n) (Fin (T.lead l).n) ℂ} {Qm : (l : Fin T.N) → Matrix (Fin (T.lead l).m) (Fin (T.lead l).m) ℂ}

theorem Conserved.attachH (hQ : Conserved T q Q Qm) (l : Fin T.N) : Qm l * (T.lead l).hopᴴ = (T.lead l).hopᴴ * Q l := by
  have h := congrArg conjTranspose (hQ.attach l)
  rw [conjTranspose_mul, conjTranspose_mul, hQ.herm, hQ.hermM] at h
  exact h.symm

theorem Conserved.hopH (hQ : Conserved T q Q Qm) (l : Fin T.N) : Q l * (padHop (T.lead l).hop)ᴴ = (padHop (T.lead l).hop)ᴴ * Q l := by
  have h := congrArg conjTranspose (hQ.hop l)
  rw [conjTranspose_mul, conjTranspose_mul, hQ.herm] at h
  exact h.symm

theorem Conserved.cellAt (hQ : Conserved T q Q Qm) (l : Fin T.N) (E : ℝ) : Q l * (T.lead l).at E = (T.lead l).at E * Q l := by
  rw [PhysLead.at, Matrix.mul_sub, Matrix.sub_mul, hQ.cell, Matrix.mul_smul, Matrix.mul_one, Matrix.smul_mul, Matrix.one_mul]

/-- The conserved quantity applied to a wave in the scattering region. -/
noncomputable def applyRegion (T : Open) (q : ℕ → ℕ → ℂ) (ψ : ℕ → ℂ) (α : ℕ) : ℂ := ∑ β ∈ range T.ham.rows, q α β * ψ β

theorem Conserved.fromLead (hQ : Conserved T q Q Qm) (hT : T.Ok) (l : Fin T.N) (f : Fin (T.lead l).m → ℂ) {α : ℕ} (hα : α < T.ham.rows) :
    ∑ γ ∈ range T.ham.rows, q α γ * T.fromLead l f γ = T.fromLead l (Qm l *ᵥ f) α := by
  rw [sum_fromLead hT (fun γ => q α γ)]
  simp only [hQ.into l α hα, Open.fromLead, Finset.sum_mul]
  rw [Finset.sum_comm]
  refine Finset.sum_congr rfl fun p _ => ?_
  by_cases h : (T.iface l)[(p : ℕ)]? = some α
  · simp only [if_pos h]
    rfl
  · simp only [if_neg h, zero_mul, Finset.sum_const_zero]

theorem Conserved.amp (hQ : Conserved T q Q Qm) (hT : T.Ok) (l : Fin T.N) (ψ : ℕ → ℂ) : T.amp (applyRegion T q ψ) l = Qm l *ᵥ T.amp ψ l := by
  ext p
  change ∑ β ∈ range T.ham.rows, q ((T.iface l).getD p 0) β * ψ β = ∑ p', Qm l p p' * ψ ((T.iface l).getD p' 0)
  have h1 := sum_fromLead hT (fun β => ψ β) l (fun p' => Qm l p p')
  have h2 : ∑ p' : Fin (T.lead l).m, Qm l p p' * ψ ((T.iface l).getD p' 0) = ∑ p' : Fin (T.lead l).m, ψ ((T.iface l).getD p' 0) * Qm l p p' :=
    Finset.sum_congr rfl fun q _ => mul_comm _ _
  rw [h2, ← h1]
  refine Finset.sum_congr rfl fun β hβ => ?_
  rw [hQ.onto l p β (Finset.mem_range.mp hβ), mul_comm]
  rfl

/-- A conserved quantity maps waves to waves of the same energy. -/
theorem Conserved.wave (hQ : Conserved T q Q Qm) (hT : T.Ok) {ψ : ℕ → ℂ} {Ψ : (l : Fin T.N) → ℕ → Fin (T.lead l).n → ℂ} (hw : InfWave T E ψ Ψ) :
    InfWave T E (applyRegion T q ψ) (fun l j => Q l *ᵥ Ψ l j) := by
  constructor
  · intro α hα
    have h1 : ∑ γ ∈ range T.ham.rows, q α γ * ((∑ β ∈ range T.ham.rows, T.ham.val γ β * ψ β) - E * ψ γ + ∑ l, T.fromLead l ((T.lead l).hopᴴ *ᵥ Ψ l 0) γ) = 0 := by
      refine Finset.sum_eq_zero fun γ hγ => ?_
      rw [hw.region γ (Finset.mem_range.mp hγ), mul_zero]
    simp only [mul_add, mul_sub, Finset.sum_add_distrib, Finset.sum_sub_distrib, Finset.mul_sum] at h1
    have e1 : ∑ γ ∈ range T.ham.rows, ∑ β ∈ range T.ham.rows, q α γ * (T.ham.val γ β * ψ β) = ∑ β ∈ range T.ham.rows, T.ham.val α β * applyRegion T q ψ β := by
      rw [Finset.sum_comm]
      have e2 : ∀ β ∈ range T.ham.rows, ∑ γ ∈ range T.ham.rows, q α γ * (T.ham.val γ β * ψ β) = ∑ γ ∈ range T.ham.rows, T.ham.val α γ * (q γ β * ψ β) := by
        intro β hβ
        have e3 := congrArg (fun z => z * ψ β) (hQ.region α hα β (Finset.mem_range.mp hβ))
        simp only [Finset.sum_mul, mul_assoc] at e3
        exact e3
      rw [Finset.sum_congr rfl e2, Finset.sum_comm]
      simp only [applyRegion, Finset.mul_sum]
    have e4 : ∑ γ ∈ range T.ham.rows, q α γ * (E * ψ γ) = E * applyRegion T q ψ α := by
      rw [applyRegion, Finset.mul_sum]
      exact Finset.sum_congr rfl fun γ _ => by ring
    have e5 : ∑ γ ∈ range T.ham.rows, ∑ l, q α γ * T.fromLead l ((T.lead l).hopᴴ *ᵥ Ψ l 0) γ = ∑ l : Fin T.N, T.fromLead l ((T.lead l).hopᴴ *ᵥ (Q l *ᵥ Ψ l 0)) α := by
      rw [Finset.sum_comm]
      refine Finset.sum_congr rfl fun l _ => ?_
      rw [hQ.fromLead hT l _ hα, Matrix.mulVec_mulVec, hQ.attachH, Matrix.mulVec_mulVec]
    rw [e1, e4, e5] at h1
    exact h1
  · intro l
    constructor
    · have h1 := congrArg (fun x => Q l *ᵥ x) (hw.lead l).first
      simp only [Matrix.mulVec_add, Matrix.mulVec_mulVec, Matrix.mulVec_zero] at h1
      rw [hQ.cellAt, hQ.hopH, hQ.attach] at h1
      simp only [← Matrix.mulVec_mulVec] at h1
      rw [hQ.amp hT]
      exact h1
    · intro j
      have h1 := congrArg (fun x => Q l *ᵥ x) ((hw.lead l).bulk j)
      simp only [Matrix.mulVec_add, Matrix.mulVec_mulVec, Matrix.mulVec_zero] at h1
      rw [hQ.cellAt, hQ.hopH, hQ.hop] at h1
      simp only [← Matrix.mulVec_mulVec] at h1
      exact h1

/-- The amplitudes of the modes, if the modes have values of the conserved quantity. -/
theorem asymp_conserved (hB : BasisOk E B) (l : Fin T.N) {lam : Fin (B.M l).p ⊕ Fin (B.M l).p → ℝ} (hl : ∀ i, Q l *ᵥ (B.M l).wf.col i = (lam i : ℂ) • (B.M l).wf.col i)
    {a : Fin (B.M l).p ⊕ Fin (B.M l).p → ℂ} {Ψ : ℕ → Fin (T.lead l).n → ℂ} (hA : Asymp (B.M l) (B.sg l) a Ψ) :
    Asymp (B.M l) (B.sg l) (fun i => lam i * a i) (fun j => Q l *ᵥ Ψ j) := by
  have h1 := asymp_img (M' := B.M l) (sg' := B.sg l) (c := false) hA (Q l) (D := diagonal fun i => (lam i : ℂ)) (by
    intro i
    have h2 : CellMap.img false (Q l) ((B.M l).wf.col i) = (lam i : ℂ) • (B.M l).wf.col i := hl i
    rw [h2, Finset.sum_eq_single i]
    · rw [diagonal_apply_eq]
    · intro j _ hj
      rw [diagonal_apply_ne _ hj, zero_smul]
    · intro h; exact absurd (Finset.mem_univ _) h) (by
    intro j i hji
    have h3 : j = i := by_contra fun h => hji (diagonal_apply_ne _ h)
    rw [h3]
    rfl) (fun j => (sg_kap (c := false) hB l j).2)
  refine (congrArg (fun a => Asymp (B.M l) (B.sg l) a _) ?_).mp h1
  funext j
  rw [Finset.sum_eq_single j]
  · rw [diagonal_apply_eq, kap_false, kap_false]
    linear_combination (lam j * a j) * (sg_kap (c := false) hB l j).2
  · intro i _ hi
    rw [diagonal_apply_ne _ (Ne.symm hi)]
    ring
  · intro h; exact absurd (Finset.mem_univ _) h

/-- C190: elements of the scattering matrix between modes with different values of a conserved quantity are zero. -/
theorem C190_zero (hQ : Conserved T q Q Qm) (hT : T.Ok) (hB : BasisOk E B) {S : FullS} (h : IsSmatrix E B S) {lam : (l : Fin T.N) → Fin (B.M l).p ⊕ Fin (B.M l).p → ℝ}
    (hl : ∀ l i, Q l *ᵥ (B.M l).wf.col i = (lam l i : ℂ) • (B.M l).wf.col i) (l k : Fin T.N) (a : Fin (B.M l).p) (b : Fin (B.M k).p) (hne : lam l (.inr a) ≠ lam k (.inl b)) :
    S l a k b = 0 := by
  obtain ⟨ψ, Ψ, hw⟩ := h k b b.2
  have h7 := C189_out_of_in hT hB h (hQ.wave hT hw.1) (fun x => asymp_conserved hB x (hl x) (hw.2 x)) l a
  simp only [Sum.elim_inl, Sum.elim_inr] at h7
  have e1 : ∀ x : Fin T.N, ∑ i : Fin (B.M x).p, S l a x i * ((lam x (.inl i) : ℂ) * (if x = k ∧ (i : ℕ) = b then 1 else 0)) =
      ∑ i : Fin (B.M x).p, (if x = k ∧ (i : ℕ) = b then 1 else 0) * (S l a x i * (lam x (.inl i) : ℂ)) := fun x => Finset.sum_congr rfl fun i _ => by ring
  rw [Finset.sum_congr rfl fun x _ => e1 x, sum_delta (p := fun x => (B.M x).p) k b fun x i => S l a x i * (lam x (.inl i) : ℂ)] at h7
  have h8 : ((lam l (.inr a) - lam k (.inl b) : ℝ) : ℂ) * S l a k b = 0 := by
    rw [ofReal_sub]
    linear_combination h7
  rcases mul_eq_zero.mp h8 with h9 | h9
  · exact absurd (sub_eq_zero.mp (ofReal_eq_zero.mp h9)) hne
  · exact h9

/-! ### Computed modes -/

theorem card_before {p nb : ℕ} {f : Fin p → Fin nb} (hf : Monotone f) (i : Fin p) (x : ℕ) : (i : ℕ) < (univ.filter fun j => (f j : ℕ) < x).card ↔ (f i : ℕ) < x := by
  constructor
  · intro h
    by_contra hx
    have h1 : (univ.filter fun j => (f j : ℕ) < x) ⊆ univ.filter fun j : Fin p => j < i := by
      intro j hj
      rw [Finset.mem_filter] at hj ⊢
      refine ⟨hj.1, lt_of_not_ge fun h2 => hx (lt_of_le_of_lt (hf h2) hj.2)⟩
    have h2 := Finset.card_le_card h1
    rw [show (univ.filter fun j : Fin p => j < i) = Finset.Iio i by ext j; simp, Fin.card_Iio] at h2
    omega
  · intro h
    have h1 : (univ.filter fun j : Fin p => j ≤ i) ⊆ univ.filter fun j => (f j : ℕ) < x := by
      intro j hj
      rw [Finset.mem_filter] at hj ⊢
      exact ⟨hj.1, lt_of_le_of_lt (hf hj.2) h⟩
    have h2 := Finset.card_le_card h1
    rw [show (univ.filter fun j : Fin p => j ≤ i) = Finset.Iic i by ext j; simp, Fin.card_Iic] at h2
    omega

theorem sum_counts {p nb : ℕ} (f : Fin p → Fin nb) (x : ℕ) :
    (((List.finRange nb).map fun b => (univ.filter fun i => f i = b).card).take x).sum = (univ.filter fun i => (f i : ℕ) < x).card := by
  rw [← List.ofFn_eq_map, List.sum_take_ofFn]
  rw [Finset.card_eq_sum_card_fiberwise (f := f) (t := univ.filter fun b : Fin nb => (b : ℕ) < x)]
  · refine Finset.sum_congr rfl fun b hb => ?_
    congr 1
    ext i
    rw [Finset.mem_filter] at hb
    simp only [Finset.mem_filter, Finset.mem_univ, true_and]
    constructor
    · intro h
      exact ⟨by rw [h]; exact hb.2, h⟩
    · exact fun h => h.2
  · intro i hi
    simpa using hi

/-- The modes with the numbers that belong to block `x` are in block `x`. -/
theorem block_of_number {p nb : ℕ} {f : Fin p → Fin nb} (hf : Monotone f) {nm : List ℕ} (hn : nm = (List.finRange nb).map fun b => (univ.filter fun i => f i = b).card) {x a : ℕ}
    (ha : a < nm.getD x 0) (i : Fin p) (hi : (i : ℕ) = (nm.take x).sum + a) : (f i : ℕ) = x := by
  have hx : x < nm.length := by
    by_contra h
    rw [List.getD_eq_getElem?_getD, List.getElem?_eq_none (not_lt.mp h), Option.getD_none] at ha
    omega
  have h1 : ¬ (f i : ℕ) < x := by
    rw [← card_before hf, ← sum_counts f x, ← hn]
    omega
  have h2 : (f i : ℕ) < x + 1 := by
    rw [← card_before hf, ← sum_counts f (x + 1), ← hn, List.take_add_one, List.getElem?_eq_getElem hx, List.sum_append]
    rw [List.getD_eq_getElem?_getD, List.getElem?_eq_getElem hx, Option.getD_some] at ha
    simp only [Option.toList_some, List.sum_cons, List.sum_nil]
    omega
  omega

theorem counts_sum {p nb : ℕ} {f : Fin p → Fin nb} {nm : List ℕ} (hn : nm = (List.finRange nb).map fun b => (univ.filter fun i => f i = b).card) : nm.sum = p := by
  have h := sum_counts f nb
  rw [← hn, List.take_of_length_le (by rw [hn]; simp)] at h
  rw [h, Finset.filter_true_of_mem fun i _ => (f i).2, Finset.card_univ, Fintype.card_fin]

theorem modes_blocks {n m : ℕ} {e : ModesNum} {pr : Option (Projectors n)} {sy : Symm n} {h : Matrix (Fin n) (Fin n) ℂ} {hop : Matrix (Fin n) (Fin m) ℂ} {M : LeadModes n m}
    (hM : modes e pr sy h hop = .ok M) : (hop = 0 ∧ M.p = 0) ∨ (hop ≠ 0 ∧ ∃ nm, M.blockNmodes = some nm) := by
  unfold modes at hM
  split at hM
  · rename_i h0
    cases hM
    exact .inl ⟨h0, rfl⟩
  · rename_i h0
    refine .inr ⟨h0, ?_⟩
    split at hM
    · dsimp only at hM
      split at hM
      · cases hM
      · split at hM
        · cases hM
          exact ⟨_, rfl⟩
        · cases hM
    · cases hM

/-- The values of the conserved quantity in the modes. -/
theorem mode_values {n m : ℕ} {e : ModesNum} {P : Projectors n} {sy : Symm n} {h : Matrix (Fin n) (Fin n) ℂ} {hop : Matrix (Fin n) (Fin m) ℂ} {M : LeadModes n m} (ho : LeadOk e P sy h (padHop hop))
    (hM : modes e (some P) sy h hop = .ok M) {A : Matrix (Fin n) (Fin n) ℂ} {val : Fin P.nb → ℝ} (hval : ∀ x, A * P.proj x = (val x : ℂ) • P.proj x) :
    ∃ lam : Fin M.p ⊕ Fin M.p → ℝ, (∀ i, A *ᵥ M.wf.col i = (lam i : ℂ) • M.wf.col i) ∧ ∀ nm, M.blockNmodes = some nm → nm.sum = M.p ∧ nm.length = P.nb ∧
      ∀ (x : Fin P.nb) (a : ℕ) (i : Fin M.p), a < nm.getD x 0 → (i : ℕ) = (nm.take x).sum + a → lam (.inl i) = val x ∧ lam (.inr i) = val x := by
  have hspec := C114_modes (projectors := some P) ho hM
  rcases modes_blocks hM with ⟨_, h0⟩ | ⟨_, nm, hnm⟩
  · have hem : IsEmpty (Fin M.p) := by rw [h0]; infer_instance
    refine ⟨fun _ => 0, fun i => isEmptyElim i, fun nm hnm => ?_⟩
    obtain ⟨blk, hmono, hn, _⟩ := hspec.blocks nm hnm
    refine ⟨counts_sum hn, by rw [hn]; simp, fun x a i => isEmptyElim i⟩
  · obtain ⟨blk, hmono, hn, hi, hr, _⟩ := hspec.blocks nm hnm
    have hv : ∀ (x : Fin P.nb) (v : Fin n → ℂ), (P.proj x * (P.proj x)ᴴ) *ᵥ v = v → A *ᵥ v = (val x : ℂ) • v := by
      intro x v hx
      have h1 : A *ᵥ ((P.proj x * (P.proj x)ᴴ) *ᵥ v) = (val x : ℂ) • ((P.proj x * (P.proj x)ᴴ) *ᵥ v) := by
        rw [Matrix.mulVec_mulVec, ← Matrix.mul_assoc, hval, Matrix.smul_mul, Matrix.smul_mulVec]
      rw [hx] at h1
      exact h1
    refine ⟨Sum.elim (fun i => val (blk i)) (fun i => val (blk i)), ?_, ?_⟩
    · rintro (i | i)
      · exact hv _ _ (hi i)
      · exact hv _ _ (hr i)
    · intro nm' hnm'
      rw [hnm] at hnm'
      cases hnm'
      refine ⟨counts_sum hn, by rw [hn]; simp, fun x a i ha hia => ?_⟩
      have h1 : blk i = x := Fin.ext (block_of_number hmono hn ha i hia)
      simp only [Sum.elim_inl, Sum.elim_inr, h1, and_self]

/-- C190: if the leads are given projectors to the eigenspaces of a conserved quantity, then the transmission between blocks with different values, as in `smatrix.transmission((l, x), (k, y))`,
is zero. -/
theorem C190_transmission {e : ModesNum} (hQ : Conserved T q Q Qm) (hT : T.Ok) (ho : LeadsOk e T E) {M : (l : Fin T.N) → LeadModes (T.lead l).n (T.lead l).m} (hM : Computed e T E M)
    {P : (l : Fin T.N) → Projectors (T.lead l).n} (hP : ∀ l, (T.lead l).projectors = some (P l)) {val : (l : Fin T.N) → Fin (P l).nb → ℝ}
    (hval : ∀ l x, Q l * (P l).proj x = (val l x : ℂ) • (P l).proj x) {sg : (l : Fin T.N) → Fin (M l).p ⊕ Fin (M l).p → ℂ} (hB : BasisOk E ⟨M, sg⟩) {S : FullS} (h : IsSmatrix E ⟨M, sg⟩ S)
    {s : SMat} (hs : PartOf s S) (hsz : s.sizes = (LeadBasis.mk M sg).num) (hbs : ∀ l : Fin T.N, s.blockSizes l = (M l).blockNmodes) {l k : Fin T.N} (hl : (l : ℕ) ∈ s.outLeads) (hk : (k : ℕ) ∈ s.inLeads)
    (hl0 : (T.lead l).hop ≠ 0) (hk0 : (T.lead k).hop ≠ 0) (x : Fin (P l).nb) (y : Fin (P k).nb) (hne : val l x ≠ val k y) : transmissionSel s (.block l x) (.block k y) = .ok 0 := by
  have hoP : ∀ l, LeadOk e (P l) (T.lead l).sy ((T.lead l).at E) (padHop (T.lead l).hop) := fun l => by
    have h1 := ho l
    rw [hP l] at h1
    exact h1
  have hMP : ∀ l, modes e (some (P l)) (T.lead l).sy ((T.lead l).at E) (T.lead l).hop = .ok (M l) := fun l => by
    rw [← hP l]
    exact hM l
  choose lam hlam hblk using fun l => mode_values (hoP l) (hMP l) (hval l)
  have hnm : ∀ l : Fin T.N, (T.lead l).hop ≠ 0 → ∃ nm, (M l).blockNmodes = some nm := fun l h0 => by
    rcases modes_blocks (hMP l) with h1 | h1
    · exact absurd h1.1 h0
    · exact h1.2
  obtain ⟨nl, hnl⟩ := hnm l hl0
  obtain ⟨nk, hnk⟩ := hnm k hk0
  obtain ⟨sl, ll, bl⟩ := hblk l nl hnl
  obtain ⟨sk, lk, bk⟩ := hblk k nk hnk
  have hnum : ∀ l : Fin T.N, s.sizes l = (M l).p := fun l => by
    rw [hsz]
    exact dif_pos l.2
  have hle : ∀ (bs : List ℕ) (b : ℕ), b < bs.length → (bs.take b).sum + bs.getD b 0 ≤ bs.sum := by
    intro bs b hb
    have e : bs.sum = (bs.take (b + 1)).sum + (bs.drop (b + 1)).sum := by rw [← List.sum_append, List.take_append_drop]
    rw [List.take_add_one, List.getElem?_eq_getElem hb, List.sum_append] at e
    simp only [Option.toList_some, List.sum_cons, List.sum_nil, Nat.add_zero] at e
    rw [List.getD_eq_getElem?_getD, List.getElem?_eq_getElem hb, Option.getD_some]
    omega
  have hxl : (x : ℕ) < nl.length := by rw [ll]; exact x.2
  have hyl : (y : ℕ) < nk.length := by rw [lk]; exact y.2
  rw [C55_block_transmission hs hl hk ((hbs l).trans hnl) ((hbs k).trans hnk) (by rw [hnum, sl]) (by rw [hnum, sk]) hxl hyl]
  congr 1
  refine Finset.sum_eq_zero fun a ha => Finset.sum_eq_zero fun b hb => ?_
  have ha' := Finset.mem_range.mp ha
  have hb' := Finset.mem_range.mp hb
  have h1 := hle nl x hxl
  have h2 := hle nk y hyl
  have hi : (nl.take x).sum + a < (M l).p := by omega
  have hj : (nk.take y).sum + b < (M k).p := by omega
  have h3 := (bl x a ⟨_, hi⟩ ha' rfl).2
  have h4 := (bk y b ⟨_, hj⟩ hb' rfl).1
  have h5 := C190_zero (B := ⟨M, sg⟩) (lam := lam) hQ hT hB h hlam l k ⟨_, hi⟩ ⟨_, hj⟩ (by
    change lam l (.inr _) ≠ lam k (.inl _)
    rw [h3, h4]
    exact hne)
  change S l ((nl.take x).sum + a) k ((nk.take y).sum + b) = 0 at h5
  rw [h5, normSq_zero]

/-- C190: what `smatrix` returns has no transmission between blocks with different values of the conserved quantity. -/
theorem C190_smatrix {e : ModesNum} (hQ : Conserved T q Q Qm) (hT : T.Ok) (ho : LeadsOk e T E) {M : (l : Fin T.N) → LeadModes (T.lead l).n (T.lead l).m} (hM : Computed e T E M)
    (hn : NoBoundState T E) (hif : ∀ l, (T.lead l).interface ≠ []) (hhop : ∀ l, (T.lead l).hop ≠ 0)
    {P : (l : Fin T.N) → Projectors (T.lead l).n} (hP : ∀ l, (T.lead l).projectors = some (P l)) {val : (l : Fin T.N) → Fin (P l).nb → ℝ}
    (hval : ∀ l x, Q l * (P l).proj x = (val l x : ℂ) • (P l).proj x) (Sig) {outLeads inLeads : Option (List ℕ)} {check : Bool} {ls : LinearSys ℂ} {kv o i : List ℕ}
    (h : smatrixSetup (T.toSys M Sig) (E : ℂ) outLeads inLeads check = .ok (ls, kv, o, i)) {X : ℕ → ℕ → ℂ} (hX : Solves ls X) {s : SMat}
    (hdata : ∀ p c r, kv[p]? = some r → s.data p c = X r c) (hN : s.nLeads = T.N) (hso : s.outLeads = o) (hsi : s.inLeads = i) (hsz : ∀ l : Fin T.N, s.sizes l = (M l).p)
    (hsz' : ∀ l, T.N ≤ l → s.sizes l = 0) (hbs : ∀ l : Fin T.N, s.blockSizes l = (M l).blockNmodes) {l k : Fin T.N} (hl : (l : ℕ) ∈ o) (hk : (k : ℕ) ∈ i)
    (x : Fin (P l).nb) (y : Fin (P k).nb) (hne : val l x ≠ val k y) : transmissionSel s (.block l x) (.block k y) = .ok 0 := by
  obtain ⟨_, _, _, _, _, sg, _, hB, S, hS⟩ := C116_succeeds hT ho hM hn hif hhop Sig (o := [(l : ℕ)]) (i := [(k : ℕ)]) (by simp) (by simp) (by simp) (by simp) (by simp) check
  have hsz0 : s.sizes = (LeadBasis.mk M sg).num := by
    funext j
    by_cases hj : j < T.N
    · rw [LeadBasis.num, dif_pos hj]
      exact hsz ⟨j, hj⟩
    · rw [LeadBasis.num, dif_neg hj]
      exact hsz' j (not_lt.mp hj)
  have hp := smatrix_part hT hB Sig h (.inl hhop) hX hS hdata hN hso hsi hsz0
  exact C190_transmission hQ hT ho hM hP hval hB hS hp hsz0 hbs (by rw [hso]; exact hl) (by rw [hsi]; exact hk) (hhop l) (hhop k) x y hne

/-! ### Example -/

/-- Two orbitals with different energies between two leads with conservation laws. -/
noncomputable def cnOpen : Open := ⟨⟨2, 2, fun α β => if α = β then (α + 1 : ℂ) else 0⟩, [2], 2, fun _ => exLead⟩

theorem cnOpen_ok : cnOpen.Ok := by
  refine ⟨rfl, rfl, ?_, ?_, fun l => rfl⟩
  · intro α _ β _
    change star (if α = β then (α + 1 : ℂ) else 0) = if β = α then (β + 1 : ℂ) else 0
    by_cases h : α = β
    · subst h
      simp
    · rw [if_neg h, if_neg (Ne.symm h), star_zero]
  · exact exOpen_ok.iface

theorem cn_noBound : NoBoundState cnOpen 0 := by
  intro ψ Ψ hw hd
  have h : ∀ l : Fin cnOpen.N, cnOpen.amp ψ l = 0 ∧ ∀ j, Ψ l j = 0 := by
    intro l
    have h1 := hw.lead l
    have e : (cnOpen.lead l).at 0 = (0 : Matrix (Fin 2) (Fin 2) ℂ) := exAt l
    rw [e] at h1
    exact ex_lead h1 (hd l)
  refine ⟨?_, fun l => (h l).2⟩
  intro α hα
  have h1 := (h (0 : Fin 2)).1
  change α < 2 at hα
  have h2 := congrFun h1 (⟨α, hα⟩ : Fin 2)
  interval_cases α
  · exact h2
  · exact h2

/-- The number of the orbital. -/
noncomputable def cnQ : Matrix (Fin 2) (Fin 2) ℂ := diagonal ![0, 1]

theorem cn_conserved : Conserved cnOpen (fun α β => if α = β then (α : ℂ) else 0) (fun _ => cnQ) (fun _ => cnQ) := by
  have hh : cnQᴴ = cnQ := by
    ext i j
    fin_cases i <;> fin_cases j <;> simp [cnQ]
  have hc : cnQ * trHop = trHop * cnQ := by
    rw [cnQ, trHop, diagonal_mul_diagonal, diagonal_mul_diagonal]
    congr 1
    ext i
    exact mul_comm _ _
  refine ⟨fun _ => hh, fun _ => hh, ?_, ?_, ?_, fun _ => hc, ?_, ?_⟩
  · intro α hα β hβ
    change α < 2 at hα
    change β < 2 at hβ
    change ∑ γ ∈ range 2, (if α = γ then (α : ℂ) else 0) * (if γ = β then (γ + 1 : ℂ) else 0) = ∑ γ ∈ range 2, (if α = γ then (α + 1 : ℂ) else 0) * (if γ = β then (γ : ℂ) else 0)
    interval_cases α <;> interval_cases β <;> simp [Finset.sum_range_succ]
  · intro l
    change cnQ * (0 : Matrix (Fin 2) (Fin 2) ℂ) = (0 : Matrix (Fin 2) (Fin 2) ℂ) * cnQ
    rw [Matrix.mul_zero, Matrix.zero_mul]
  · intro l
    change cnQ * padHop trHop = padHop trHop * cnQ
    rw [trPad]
    exact hc
  · intro l α hα p
    change α < 2 at hα
    change Fin 2 at p
    change (if α = ([0, 1] : List ℕ).getD p 0 then (α : ℂ) else 0) = ∑ p' : Fin 2, if ([0, 1] : List ℕ)[(p' : ℕ)]? = some α then cnQ p' p else 0
    interval_cases α <;> fin_cases p <;> simp [cnQ, Fin.sum_univ_two]
  · intro l p β hβ
    change β < 2 at hβ
    change Fin 2 at p
    change (if ([0, 1] : List ℕ).getD p 0 = β then ((([0, 1] : List ℕ).getD p 0 : ℕ) : ℂ) else 0) = ∑ p' : Fin 2, if ([0, 1] : List ℕ)[(p' : ℕ)]? = some β then cnQ p p' else 0
    interval_cases β <;> fin_cases p <;> simp [cnQ, Fin.sum_univ_two]

/-- C190: the example meets the hypotheses, so there is no transmission from orbital 0 of lead 0 to orbital 1 of lead 1. -/
theorem C190_example : ∃ M : (l : Fin cnOpen.N) → LeadModes (cnOpen.lead l).n (cnOpen.lead l).m, Computed exM cnOpen 0 M ∧ ∀ Sig, ∃ (s : SMat) (ls : LinearSys ℂ) (kv : List ℕ) (X : ℕ → ℕ → ℂ),
    (∀ l : Fin cnOpen.N, s.sizes l = (M l).p ∧ s.blockSizes l = (M l).blockNmodes) ∧
    smatrixSetup (cnOpen.toSys M Sig) ((0 : ℝ) : ℂ) (some [0, 1]) (some [0, 1]) true = .ok (ls, kv, [0, 1], [0, 1]) ∧ Solves ls X ∧ (∀ p c r, kv[p]? = some r → s.data p c = X r c) ∧
    transmissionSel s (.block 1 1) (.block 0 0) = .ok 0 := by
  have hne : trHop ≠ 0 := by
    intro h
    have := congrFun (congrFun h 0) 0
    simp [trHop] at this
  obtain ⟨M, hM⟩ : ∃ M, Computed exM cnOpen 0 M := exComputed
  refine ⟨M, hM, fun Sig => ?_⟩
  obtain ⟨ls, kv, h, ⟨X, hX⟩, _, sg, _, hB, S, hS⟩ := C116_succeeds cnOpen_ok (exLeads : LeadsOk exM cnOpen 0) hM cn_noBound (fun l => by change [0] ≠ []; simp) (fun l => hne) Sig (o := [0, 1]) (i := [0, 1])
    (by simp) (by simp) (by simp) (by simp) (by
      intro l hl
      change l < 2
      simp at hl
      omega) true
  refine ⟨⟨fun p c => X (kv.getD p 0) c, 2, [0, 1], [0, 1], (LeadBasis.mk M sg).num, fun l => if h : l < 2 then (M ⟨l, h⟩).blockNmodes else none, true⟩, ls, kv, X, fun l => ⟨?_, ?_⟩, h, hX, ?_, ?_⟩
  · exact dif_pos l.2
  · exact dif_pos l.2
  · intro p c r hr
    change X (kv.getD p 0) c = X r c
    rw [List.getD_eq_getElem?_getD, hr, Option.getD_some]
  · refine C190_smatrix (l := (1 : Fin 2)) (k := (0 : Fin 2)) (P := fun _ => trProj) (val := fun _ x => ((x : ℕ) : ℝ)) cn_conserved cnOpen_ok (exLeads : LeadsOk exM cnOpen 0) hM cn_noBound
      (fun l => by change [0] ≠ []; simp) (fun l => hne) (fun l => rfl) ?_ Sig h hX ?_ rfl rfl rfl ?_ ?_ ?_ (by simp) (by simp) (1 : Fin 2) (0 : Fin 2) (by simp)
    · intro l x
      change Fin 2 at x
      ext i j
      change Fin 2 at i
      change (cnQ * (of fun i _ => if i = x then 1 else 0 : Matrix (Fin 2) (Fin 1) ℂ)) i j = (((x : ℕ) : ℝ) : ℂ) * (if i = x then 1 else 0)
      rw [cnQ, diagonal_mul]
      fin_cases x <;> fin_cases i <;> simp
    · intro p c r hr
      change X (kv.getD p 0) c = X r c
      rw [List.getD_eq_getElem?_getD, hr, Option.getD_some]
    · intro l
      exact dif_pos l.2
    · intro l hl
      exact dif_neg (not_lt.mpr hl)
    · intro l
      exact dif_pos l.2

end Kwant.Scatt
