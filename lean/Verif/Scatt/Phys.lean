import Verif.Scatt.Spec

/-!
C116: conservation of the current in the infinite system; the scattering matrix is unique and unitary.
-/

set_option linter.unusedSectionVars false

namespace Kwant.Scatt
open Finset Complex Filter
open Matrix hiding mulVec
open Kwant.Leads hiding Modes
open Kwant.Solver hiding transmission LErr mulVec

variable {T : Open} {E : ℝ}

theorem Open.Ok.lt (hT : T.Ok) {l : Fin T.N} {α : ℕ} (h : α ∈ T.iface l) : α < T.ham.rows := by
  have := orbs_lt (hT.iface l) α h
  have := hT.size
  omega

theorem sum_fromLead (hT : T.Ok) (g : ℕ → ℂ) (l : Fin T.N) (f : Fin (T.lead l).m → ℂ) :
    ∑ α ∈ range T.ham.rows, g α * T.fromLead l f α = ∑ p : Fin (T.lead l).m, g ((T.iface l).getD p 0) * f p := by
  simp only [Open.fromLead, Finset.mul_sum]
  rw [Finset.sum_comm]
  refine Finset.sum_congr rfl fun p _ => ?_
  have hp : (p : ℕ) < (T.iface l).length := by rw [hT.width]; exact p.2
  have e : (T.iface l)[(p : ℕ)]? = some ((T.iface l)[(p : ℕ)]) := List.getElem?_eq_getElem hp
  have e2 : (T.iface l).getD (p : ℕ) 0 = (T.iface l)[(p : ℕ)] := by rw [List.getD_eq_getElem?_getD, e, Option.getD_some]
  rw [Finset.sum_eq_single ((T.iface l)[(p : ℕ)])]
  · rw [e, if_pos rfl, e2]
  · intro β _ hβ
    rw [e, if_neg (fun h => hβ (Option.some.inj h).symm), mul_zero]
  · intro h
    exact absurd (Finset.mem_range.mpr (hT.lt (List.getElem_mem hp))) h

/-- No current is lost in the scattering region. -/
theorem region_flux (hT : T.Ok) {ψ ψ' : ℕ → ℂ} {Ψ Ψ' : (l : Fin T.N) → ℕ → Fin (T.lead l).n → ℂ} (hw : InfWave T E ψ Ψ) (hw' : InfWave T E ψ' Ψ') :
    ∑ l, I * (star (T.amp ψ l) ⬝ᵥ ((T.lead l).hopᴴ *ᵥ Ψ' l 0) - star (Ψ l 0) ⬝ᵥ ((T.lead l).hop *ᵥ T.amp ψ' l)) = 0 := by
  have key : ∀ {ψ ψ' : ℕ → ℂ} {Ψ' : (l : Fin T.N) → ℕ → Fin (T.lead l).n → ℂ}, InfWave T E ψ' Ψ' →
      ∑ α ∈ range T.ham.rows, star (ψ α) * ((∑ β ∈ range T.ham.rows, T.ham.val α β * ψ' β) - E * ψ' α) + ∑ l, star (T.amp ψ l) ⬝ᵥ ((T.lead l).hopᴴ *ᵥ Ψ' l 0) = 0 := by
    intro ψ ψ' Ψ' hw'
    have h1 : ∀ l, star (T.amp ψ l) ⬝ᵥ ((T.lead l).hopᴴ *ᵥ Ψ' l 0) = ∑ α ∈ range T.ham.rows, star (ψ α) * T.fromLead l ((T.lead l).hopᴴ *ᵥ Ψ' l 0) α := by
      intro l
      rw [sum_fromLead hT (fun α => star (ψ α))]
      rfl
    simp only [h1]
    rw [Finset.sum_comm, ← Finset.sum_add_distrib]
    refine Finset.sum_eq_zero fun α hα => ?_
    rw [← Finset.mul_sum, ← mul_add, hw'.region α (Finset.mem_range.mp hα), mul_zero]
  have h1 := key (ψ := ψ) hw'
  have h2 := congrArg star (key (ψ := ψ') hw)
  rw [star_add, star_zero] at h2
  have herm : star (∑ α ∈ range T.ham.rows, star (ψ' α) * ((∑ β ∈ range T.ham.rows, T.ham.val α β * ψ β) - E * ψ α)) =
      ∑ α ∈ range T.ham.rows, star (ψ α) * ((∑ β ∈ range T.ham.rows, T.ham.val α β * ψ' β) - E * ψ' α) := by
    simp only [star_sum, star_mul, star_sub, star_star, mul_sub, sub_mul, Finset.mul_sum, Finset.sum_mul, Finset.sum_sub_distrib]
    congr 1
    · rw [Finset.sum_comm]
      refine Finset.sum_congr rfl fun α hα => Finset.sum_congr rfl fun β hβ => ?_
      rw [hT.herm β (Finset.mem_range.mp hβ) α (Finset.mem_range.mp hα)]
      ring
    · refine Finset.sum_congr rfl fun α _ => ?_
      have : star (E : ℂ) = E := conj_ofReal E
      rw [this]
      ring
  rw [herm, star_sum] at h2
  have h3 : ∀ l, star (star (T.amp ψ' l) ⬝ᵥ ((T.lead l).hopᴴ *ᵥ Ψ l 0)) = star (Ψ l 0) ⬝ᵥ ((T.lead l).hop *ᵥ T.amp ψ' l) := by
    intro l
    rw [star_form', conjTranspose_conjTranspose]
  simp only [h3] at h2
  rw [← Finset.mul_sum, Finset.sum_sub_distrib]
  linear_combination I * h1 - I * h2

theorem asymp_wave {n m : ℕ} {M : LeadModes n m} (sg a : Fin M.p ⊕ Fin M.p → ℂ) {q : ℕ} (Φ : Matrix (Fin n) (Fin q) ℂ) (F : Matrix (Fin q) (Fin q) ℂ) (j : ℕ) :
    ∑ i, (a i * sg i * cexp (I * M.mom i * (j + 1))) • M.wf.col i = modeWave (allPhi M.wf M.mom sg Φ) (fun i => (cexp (-(I * M.mom i)))⁻¹) F (Sum.elim a 0) j := by
  rw [modeWave_split]
  have h0 : (Sum.elim a 0 ∘ Sum.inr : Fin q → ℂ) = 0 := rfl
  rw [h0, mulVec_zero, mulVec_zero, add_zero]
  refine Finset.sum_congr rfl fun i _ => ?_
  ext x
  have h1 : cexp (I * M.mom i * (j + 1)) = (cexp (-(I * M.mom i)))⁻¹ ^ j * (cexp (-(I * M.mom i)))⁻¹ := by
    rw [← Complex.exp_neg, neg_neg, ← Complex.exp_nat_mul, ← Complex.exp_add]
    congr 1
    ring
  simp only [Pi.smul_apply, smul_eq_mul, col_apply, Sum.elim_inl, h1]
  change _ = _ * (_ * (_ * _ * M.wf x i))
  ring

/-- The current of a wave in a lead, in terms of the amplitudes of the modes. -/
theorem lead_flux {n m : ℕ} {h : Matrix (Fin n) (Fin n) ℂ} {hhop : Matrix (Fin n) (Fin m) ℂ} {M : LeadModes n m} {sg : Fin M.p ⊕ Fin M.p → ℂ} (hh : h.IsHermitian)
    (hs : LeadSpec h (padHop hhop) M.wf M.mom M.vel M.stab.vecslmbdainv M.stab.vecs (padRows M.stab.sqrtHop) sg) (h1 : ∀ i, M.vel (.inl i) < 0) (h2 : ∀ i, 0 < M.vel (.inr i))
    {φ φ' : Fin m → ℂ} {Ψ Ψ' : ℕ → Fin n → ℂ} (hL : LeadSolution h hhop φ Ψ) (hL' : LeadSolution h hhop φ' Ψ') {a a' : Fin M.p ⊕ Fin M.p → ℂ} (hA : Asymp M sg a Ψ) (hA' : Asymp M sg a' Ψ') :
    I * (star φ ⬝ᵥ (hhopᴴ *ᵥ Ψ' 0) - star (Ψ 0) ⬝ᵥ (hhop *ᵥ φ')) = (∑ i, star (a (.inr i)) * a' (.inr i)) - ∑ i, star (a (.inl i)) * a' (.inl i) := by
  obtain ⟨u, Φ, F, hf, hu, ho⟩ := all_modes hs
  unfold Asymp at hA hA'
  simp only [asymp_wave _ _ Φ F] at hA hA'
  have h3 := flux2_tendsto (padHop hhop) hA hA' (modeWave_bounded ho.unit a) (modeWave_bounded ho.unit a')
  simp only [flux2_solution hh hL hL'] at h3
  have h4 : ∀ j, flux2 (padHop hhop) (modeWave (allPhi M.wf M.mom sg Φ) (fun i => (cexp (-(I * M.mom i)))⁻¹) F (Sum.elim a 0))
      (modeWave (allPhi M.wf M.mom sg Φ) (fun i => (cexp (-(I * M.mom i)))⁻¹) F (Sum.elim a' 0)) j =
      (∑ i, star (a (.inr i)) * a' (.inr i)) - ∑ i, star (a (.inl i)) * a' (.inl i) := by
    intro j
    rw [hf, flux2_modeWave ho hs.current, Fintype.sum_sum_type, add_comm, sub_eq_add_neg, ← Finset.sum_neg_distrib]
    congr 1
    · refine Finset.sum_congr rfl fun i _ => ?_
      rw [abs_of_pos (h2 i), div_self (h2 i).ne', ofReal_one, one_mul]
      rfl
    · refine Finset.sum_congr rfl fun i _ => ?_
      rw [abs_of_neg (h1 i), div_neg, div_self (h1 i).ne, ofReal_neg, ofReal_one, neg_one_mul]
      rfl
  simp only [h4] at h3
  exact sub_eq_zero.mp (tendsto_nhds_unique tendsto_const_nhds h3)

/-- Conservation of the current. -/
theorem conservation (hT : T.Ok) {B : LeadBasis T} (hB : BasisOk E B) {ψ ψ' : ℕ → ℂ} {Ψ Ψ' : (l : Fin T.N) → ℕ → Fin (T.lead l).n → ℂ} (hw : InfWave T E ψ Ψ)
    (hw' : InfWave T E ψ' Ψ') {a a' : (l : Fin T.N) → Fin (B.M l).p ⊕ Fin (B.M l).p → ℂ} (hA : ∀ l, Asymp (B.M l) (B.sg l) (a l) (Ψ l)) (hA' : ∀ l, Asymp (B.M l) (B.sg l) (a' l) (Ψ' l)) :
    ∑ l, ∑ i, star (a l (.inr i)) * a' l (.inr i) = ∑ l, ∑ i, star (a l (.inl i)) * a' l (.inl i) := by
  have h1 := region_flux hT hw hw'
  rw [Finset.sum_congr rfl fun l _ => lead_flux (hB.herm l) (hB.spec l) (hB.incoming l) (hB.outgoing l) (hw.lead l) (hw'.lead l) (hA l) (hA' l), Finset.sum_sub_distrib, sub_eq_zero] at h1
  exact h1

theorem InfWave.sub {ψ ψ' : ℕ → ℂ} {Ψ Ψ' : (l : Fin T.N) → ℕ → Fin (T.lead l).n → ℂ} (hw : InfWave T E ψ Ψ) (hw' : InfWave T E ψ' Ψ') :
    InfWave T E (fun α => ψ α - ψ' α) (fun l j => Ψ l j - Ψ' l j) := by
  constructor
  · intro α hα
    have h1 := hw.region α hα
    have h2 := hw'.region α hα
    have h3 : ∀ l, T.fromLead l ((T.lead l).hopᴴ *ᵥ (Ψ l 0 - Ψ' l 0)) α = T.fromLead l ((T.lead l).hopᴴ *ᵥ Ψ l 0) α - T.fromLead l ((T.lead l).hopᴴ *ᵥ Ψ' l 0) α := by
      intro l
      rw [Open.fromLead, Open.fromLead, Open.fromLead, ← Finset.sum_sub_distrib]
      refine Finset.sum_congr rfl fun p _ => ?_
      split
      · rw [mulVec_sub]; rfl
      · rw [sub_zero]
    simp only [h3, mul_sub, Finset.sum_sub_distrib]
    linear_combination h1 - h2
  · intro l
    have h1 := hw.lead l
    have h2 := hw'.lead l
    have h3 : T.amp (fun α => ψ α - ψ' α) l = T.amp ψ l - T.amp ψ' l := rfl
    rw [h3]
    constructor
    · have a1 := h1.first
      have a2 := h2.first
      rw [mulVec_sub, mulVec_sub, mulVec_sub, ← sub_self (0 : Fin (T.lead l).n → ℂ)]
      nth_rewrite 1 [← a1]
      rw [← a2]
      abel
    · intro j
      have a1 := h1.bulk j
      have a2 := h2.bulk j
      rw [mulVec_sub, mulVec_sub, mulVec_sub, ← sub_self (0 : Fin (T.lead l).n → ℂ)]
      nth_rewrite 1 [← a1]
      rw [← a2]
      abel

theorem Asymp.sub {n m : ℕ} {M : LeadModes n m} {sg a a' : Fin M.p ⊕ Fin M.p → ℂ} {Ψ Ψ' : ℕ → Fin n → ℂ} (h : Asymp M sg a Ψ) (h' : Asymp M sg a' Ψ') :
    Asymp M sg (fun i => a i - a' i) (fun j => Ψ j - Ψ' j) := by
  have := Tendsto.sub h h'
  rw [sub_zero] at this
  refine this.congr fun j => ?_
  simp only [sub_mul, sub_smul, Finset.sum_sub_distrib]
  abel

/-- If no mode comes in, none goes out. -/
theorem no_outgoing (hT : T.Ok) {B : LeadBasis T} (hB : BasisOk E B) {ψ : ℕ → ℂ} {Ψ : (l : Fin T.N) → ℕ → Fin (T.lead l).n → ℂ} (hw : InfWave T E ψ Ψ)
    {a : (l : Fin T.N) → Fin (B.M l).p ⊕ Fin (B.M l).p → ℂ} (hA : ∀ l, Asymp (B.M l) (B.sg l) (a l) (Ψ l)) (h0 : ∀ l i, a l (.inl i) = 0) : ∀ l i, a l i = 0 := by
  have h1 := conservation hT hB hw hw hA hA
  simp only [h0, mul_zero, Finset.sum_const_zero] at h1
  have h2 : ((∑ l, ∑ i, Complex.normSq (a l (.inr i)) : ℝ) : ℂ) = 0 := by
    rw [← h1, ofReal_sum]
    refine Finset.sum_congr rfl fun l _ => ?_
    rw [ofReal_sum]
    refine Finset.sum_congr rfl fun i _ => ?_
    rw [star_def, Complex.normSq_eq_conj_mul_self]
  rw [ofReal_eq_zero, Finset.sum_eq_zero_iff_of_nonneg (fun l _ => Finset.sum_nonneg fun i _ => Complex.normSq_nonneg _)] at h2
  intro l i
  rcases i with i | i
  · exact h0 l i
  · have h3 := h2 l (Finset.mem_univ _)
    rw [Finset.sum_eq_zero_iff_of_nonneg (fun i _ => Complex.normSq_nonneg _)] at h3
    exact Complex.normSq_eq_zero.mp (h3 i (Finset.mem_univ _))

/-- The incoming mode determines the amplitudes of the outgoing modes. -/
theorem scatt_unique (hT : T.Ok) {B : LeadBasis T} (hB : BasisOk E B) {i : Fin T.N} {b : ℕ} {s s' : ℕ → ℕ → ℂ} {ψ ψ' : ℕ → ℂ}
    {Ψ Ψ' : (l : Fin T.N) → ℕ → Fin (T.lead l).n → ℂ} (hw : ScattWave E B i b s ψ Ψ) (hw' : ScattWave E B i b s' ψ' Ψ') (l : Fin T.N) (a : ℕ) (ha : a < (B.M l).p) : s l a = s' l a := by
  have h1 := no_outgoing hT hB (hw.1.sub hw'.1) (fun l => (hw.2 l).sub (hw'.2 l)) (fun l i => by simp) l (.inr ⟨a, ha⟩)
  exact sub_eq_zero.mp h1

/-- C116: the scattering matrix of a system is unique. -/
theorem C116_unique (hT : T.Ok) {B : LeadBasis T} (hB : BasisOk E B) {S S' : FullS} (h : IsSmatrix E B S) (h' : IsSmatrix E B S') (l i : Fin T.N) (a b : ℕ) (ha : a < (B.M l).p)
    (hb : b < (B.M i).p) : S l a i b = S' l a i b := by
  obtain ⟨ψ, Ψ, hw⟩ := h i b hb
  obtain ⟨ψ', Ψ', hw'⟩ := h' i b hb
  exact scatt_unique hT hB hw hw' l a ha

/-- C116: the scattering matrix of a system is unitary. -/
theorem C116_unitary (hT : T.Ok) {B : LeadBasis T} (hB : BasisOk E B) {S : FullS} (h : IsSmatrix E B S) : Solver.Unitary T.N B.num S := by
  have hnum : ∀ l : Fin T.N, B.num l = (B.M l).p := fun l => dif_pos l.2
  let Ch := (l : Fin T.N) × Fin (B.M l).p
  let A : Matrix Ch Ch ℂ := of fun c d => S c.1 c.2 d.1 d.2
  have h1 : Aᴴ * A = 1 := by
    ext d d'
    obtain ⟨ψ, Ψ, hw⟩ := h d.1 d.2 d.2.2
    obtain ⟨ψ', Ψ', hw'⟩ := h d'.1 d'.2 d'.2.2
    have h2 := conservation hT hB hw.1 hw'.1 hw.2 hw'.2
    simp only [Sum.elim_inl, Sum.elim_inr] at h2
    rw [mul_apply, Fintype.sum_sigma]
    simp only [conjTranspose_apply, A, of_apply]
    rw [h2]
    rw [← Fintype.sum_sigma (f := fun x : Ch => star (if x.1 = d.1 ∧ (x.2 : ℕ) = d.2 then (1 : ℂ) else 0) * if x.1 = d'.1 ∧ (x.2 : ℕ) = d'.2 then (1 : ℂ) else 0)]
    have h3 : ∀ x y : Ch, (x.1 = y.1 ∧ (x.2 : ℕ) = y.2) ↔ x = y := by
      rintro ⟨x, a⟩ ⟨y, b⟩
      constructor
      · rintro ⟨h4, h5⟩
        change x = y at h4
        subst h4
        have : a = b := Fin.ext h5
        rw [this]
      · intro h4
        cases h4
        exact ⟨rfl, rfl⟩
    simp only [h3]
    rw [Finset.sum_eq_single d, if_pos rfl, star_one, one_mul, one_apply]
    · intro x _ hx
      rw [if_neg hx, star_zero, zero_mul]
    · intro hx
      exact absurd (Finset.mem_univ d) hx
  have h2 := mul_eq_one_comm.mp h1
  have conv : ∀ f : ℕ → ℕ → ℂ, ∑ l ∈ range T.N, ∑ a ∈ range (B.num l), f l a = ∑ c : Ch, f c.1 c.2 := by
    intro f
    rw [Fintype.sum_sigma, Finset.sum_range]
    refine Finset.sum_congr rfl fun l _ => ?_
    rw [hnum, Finset.sum_range]
  have chan : ∀ l (hl : l < T.N), ∀ a < B.num l, ∃ c : Ch, (c.1 : ℕ) = l ∧ (c.2 : ℕ) = a := by
    intro l hl a ha
    have := hnum ⟨l, hl⟩
    exact ⟨⟨⟨l, hl⟩, ⟨a, by rw [← this]; exact ha⟩⟩, rfl, rfl⟩
  have eqv : ∀ c d : Ch, ((c.1 : ℕ) = d.1 ∧ (c.2 : ℕ) = d.2) ↔ c = d := by
    rintro ⟨x, a⟩ ⟨y, b⟩
    constructor
    · rintro ⟨h4, h5⟩
      have h4' : x = y := Fin.ext h4
      subst h4'
      have : a = b := Fin.ext h5
      rw [this]
    · intro h4
      cases h4
      exact ⟨rfl, rfl⟩
  constructor
  · intro o ho a ha o' ho' a' ha'
    obtain ⟨c, rfl, rfl⟩ := chan o ho a ha
    obtain ⟨c', rfl, rfl⟩ := chan o' ho' a' ha'
    rw [conv fun i b => S c.1 c.2 i b * star (S c'.1 c'.2 i b)]
    have := congrFun (congrFun h2 c) c'
    rw [mul_apply, one_apply] at this
    rw [if_congr (eqv c c') rfl rfl]
    exact this
  · intro o ho a ha o' ho' a' ha'
    obtain ⟨c, rfl, rfl⟩ := chan o ho a ha
    obtain ⟨c', rfl, rfl⟩ := chan o' ho' a' ha'
    rw [conv fun i b => star (S i b c.1 c.2) * S i b c'.1 c'.2]
    have := congrFun (congrFun h1 c) c'
    rw [mul_apply, one_apply] at this
    rw [if_congr (eqv c c') rfl rfl]
    exact this

end Kwant.Scatt
