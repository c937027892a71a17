import Verif.Scatt.Main
import Verif.Scatt.Coupling
import Verif.Solver.Green

/-!
C117: `greens_function` returns the response of the infinite system to a source, and the transmissions computed from it are those of the scattering matrix.
-/

set_option linter.unusedSectionVars false

namespace Kwant.Scatt
open Finset Complex Filter
open Matrix hiding mulVec
open Kwant.Leads hiding Modes
open Kwant.Solver hiding transmission LErr mulVec

variable {T : Open} {E : ℝ}

/-! ### Specification -/

/-- `ψ` in the scattering region and `Ψ l j` in cell `j` of lead `l` solve `(E - H) ψ = δ_β` in the infinite system, and only outgoing waves leave through the leads. -/
structure Response (T : Open) (E : ℝ) (β : ℕ) (ψ : ℕ → ℂ) (Ψ : (l : Fin T.N) → ℕ → Fin (T.lead l).n → ℂ) : Prop where
  region : ∀ α < T.ham.rows, E * ψ α - (∑ γ ∈ range T.ham.rows, T.ham.val α γ * ψ γ) - (∑ l, T.fromLead l ((T.lead l).hopᴴ *ᵥ Ψ l 0) α) = if α = β then 1 else 0
  lead : ∀ l, LeadSolution ((T.lead l).at E) (T.lead l).hop (T.amp ψ l) (Ψ l)
  outgoing : ∀ l, OutgoingWave ((T.lead l).at E) (padHop (T.lead l).hop) (Ψ l)

/-- `Sig l` is the self-energy of lead `l`, see C115. -/
def SelfenergiesOk (T : Open) (E : ℝ) (Sig : (l : Fin T.N) → Matrix (Fin (T.lead l).m) (Fin (T.lead l).m) ℂ) : Prop :=
  ∀ l, IsSelfenergy ((T.lead l).at E) (T.lead l).hop (Sig l)

theorem gamma_herm {m : ℕ} (Sig : Matrix (Fin m) (Fin m) ℂ) : (I • (Sig - Sigᴴ)).IsHermitian := by
  rw [Matrix.IsHermitian, conjTranspose_smul, conjTranspose_sub, conjTranspose_conjTranspose, star_def, conj_I, neg_smul, ← smul_neg, neg_sub]

/-- `np.sum(np.linalg.eigvalsh(gamma) > eps)` (common.py l.984) -/
noncomputable def channels {m : ℕ} (Sig : Matrix (Fin m) (Fin m) ℂ) (eps : ℝ) : ℕ := (Finset.univ.filter fun k => eps < (gamma_herm Sig).eigenvalues k).card

/-- The threshold `eps` is below all positive eigenvalues of `Γ`. -/
def Resolved {m : ℕ} (Sig : Matrix (Fin m) (Fin m) ℂ) (eps : ℝ) : Prop := 0 ≤ eps ∧ ∀ k, 0 < (gamma_herm Sig).eigenvalues k → eps < (gamma_herm Sig).eigenvalues k

/-! ### The response -/

theorem BasisOk.data {B : LeadBasis T} (hB : BasisOk E B) (l : Fin T.N) : LeadData ((T.lead l).at E) (T.lead l).hop (B.M l) (B.sg l) :=
  ⟨hB.herm l, hB.spec l, hB.incoming l, hB.outgoing l, hB.number l, hB.size l⟩

theorem sigma_apply (hT : T.Ok) (M Sig) (l : Fin T.N) (ψ : ℕ → ℂ) (α : ℕ) :
    ∑ γ ∈ range T.ham.rows, sigmaAt T.norb (solverLead M Sig l) α γ * ψ γ = T.fromLead l (Sig l *ᵥ T.amp ψ l) α := by
  have hlen : (orbs T.norb (T.lead l).interface).length = (T.lead l).m := hT.width l
  have h1 : ∀ γ, sigmaAt T.norb (solverLead M Sig l) α γ = ∑ p : Fin (T.lead l).m, ∑ q : Fin (T.lead l).m,
      if (T.iface l)[(p : ℕ)]? = some α ∧ (T.iface l)[(q : ℕ)]? = some γ then Sig l p q else 0 := by
    intro γ
    change ∑ p ∈ range (orbs T.norb (T.lead l).interface).length, ∑ q ∈ range (orbs T.norb (T.lead l).interface).length,
      (if (T.iface l)[p]? = some α ∧ (T.iface l)[q]? = some γ then (toMat (Sig l)).val p q else 0) = _
    rw [hlen, Finset.sum_range]
    refine Finset.sum_congr rfl fun p _ => ?_
    rw [Finset.sum_range]
    refine Finset.sum_congr rfl fun q _ => ?_
    rw [toMat_val]
  simp only [h1, Finset.sum_mul, Open.fromLead]
  rw [Finset.sum_comm]
  refine Finset.sum_congr rfl fun p _ => ?_
  rw [Finset.sum_comm]
  by_cases hp : (T.iface l)[(p : ℕ)]? = some α
  · simp only [hp, true_and, if_true]
    rw [Matrix.mulVec, dotProduct]
    refine Finset.sum_congr rfl fun q _ => ?_
    have hq : (q : ℕ) < (T.iface l).length := by rw [hT.width]; exact q.2
    have e : (T.iface l)[(q : ℕ)]? = some ((T.iface l)[(q : ℕ)]) := List.getElem?_eq_getElem hq
    have hm : (T.iface l)[(q : ℕ)] ∈ range T.ham.rows := Finset.mem_range.mpr (hT.lt (List.getElem_mem _))
    rw [Finset.sum_eq_single_of_mem _ hm]
    · rw [e, if_pos rfl, Open.amp, List.getD_eq_getElem?_getD, e, Option.getD_some]
    · intro γ _ hγ
      rw [e, if_neg (fun h => hγ (Option.some.inj h).symm), zero_mul]
  · simp [hp]

theorem leadOrbs_eq (M Sig) (l : Fin T.N) : leadOrbs (T.toSys M Sig) l = T.iface l := by
  unfold leadOrbs
  rw [toSys_get]
  rfl

/-- The columns of the Green's function. -/
theorem green_column (hT : T.Ok) {B : LeadBasis T} (hB : BasisOk E B) {Sig} {outLeads inLeads : Option (List ℕ)} {check : Bool} {ls : LinearSys ℂ} {kv o i : List ℕ}
    (h : greensSetup (T.toSys B.M Sig) (E : ℂ) outLeads inLeads check = .ok (ls, kv, o, i)) {X : ℕ → ℕ → ℂ} (hX : Solves ls X) {c β : ℕ}
    (hc : (i.flatMap (leadOrbs (T.toSys B.M Sig)))[c]? = some β) (α : ℕ) (hα : α < T.ham.rows) :
    E * X α c - (∑ γ ∈ range T.ham.rows, T.ham.val α γ * X γ c) - (∑ l, T.fromLead l (Sig l *ᵥ T.amp (fun γ => X γ c) l) α) = if α = β then 1 else 0 := by
  obtain ⟨_, _, _, _, h5⟩ := C95_greens (sysOk hT hB Sig) h
  have h6 := (h5 X).mp hX c β hc α hα
  change ∑ γ ∈ range T.ham.rows, _ = _ at h6
  rw [← h6]
  have h7 : ∀ γ, invGreen (T.toSys B.M Sig) (E : ℂ) α γ * X γ c =
      (if α = γ then (E : ℂ) * X γ c else 0) - T.ham.val α γ * X γ c - ∑ l : Fin T.N, sigmaAt T.norb (solverLead B.M Sig l) α γ * X γ c := by
    intro γ
    unfold invGreen
    rw [toSys_sum B.M Sig (fun lead _ => sigmaAt (T.toSys B.M Sig).norb lead α γ), sub_mul, sub_mul, ite_mul, zero_mul, Finset.sum_mul]
    rfl
  simp only [h7, Finset.sum_sub_distrib]
  rw [Finset.sum_ite_eq, if_pos (Finset.mem_range.mpr hα)]
  congr 1
  rw [Finset.sum_comm]
  exact Finset.sum_congr rfl fun l _ => (sigma_apply hT B.M Sig l (fun γ => X γ c) α).symm

/-- The number of orbitals of the interface of a lead. -/
def Open.width (T : Open) (l : ℕ) : ℕ := if h : l < T.N then (T.lead ⟨l, h⟩).m else 0

theorem width_fin (l : Fin T.N) : T.width l = (T.lead l).m := dif_pos l.2

theorem leadOrbs_length (hT : T.Ok) (M Sig) (k : ℕ) : (leadOrbs (T.toSys M Sig) k).length = T.width k := by
  by_cases hk : k < T.N
  · have h1 := leadOrbs_eq M Sig ⟨k, hk⟩
    have h2 := width_fin (T := T) ⟨k, hk⟩
    rw [show (((⟨k, hk⟩ : Fin T.N)) : ℕ) = k from rfl] at h1 h2
    rw [h1, h2, hT.width]
  · unfold leadOrbs Open.width
    rw [dif_neg hk, List.getElem?_eq_none (by rw [toSys_length]; omega)]
    rfl

/-- The rows and columns of the Green's function. -/
theorem green_index (hT : T.Ok) (M Sig) {leads : List ℕ} {k : ℕ} {l : Fin T.N} (hk : leads[k]? = some (l : ℕ)) {q β : ℕ} (hq : (T.iface l)[q]? = some β) :
    (leads.flatMap (leadOrbs (T.toSys M Sig)))[before T.width leads k + q]? = some β := by
  have h1 := flatMap_get leads (leadOrbs (T.toSys M Sig)) k l q β hk (by rw [leadOrbs_eq]; exact hq)
  simp only [leadOrbs_length hT] at h1
  exact h1

/-- C117: the columns of the matrix that `greens_function` returns are the responses of the infinite system to sources at the orbitals of the interfaces of the incoming leads, at the orbitals
of the interfaces of the outgoing leads. -/
theorem C117_response (hT : T.Ok) {B : LeadBasis T} (hB : BasisOk E B) {Sig} (hS : SelfenergiesOk T E Sig) {outLeads inLeads : Option (List ℕ)} {check : Bool} {ls : LinearSys ℂ} {kv o i : List ℕ}
    (h : greensSetup (T.toSys B.M Sig) (E : ℂ) outLeads inLeads check = .ok (ls, kv, o, i)) {X : ℕ → ℕ → ℂ} (hX : Solves ls X) {data : ℕ → ℕ → ℂ}
    (hdata : ∀ p c r, kv[p]? = some r → data p c = X r c) {ki : ℕ} {b : Fin T.N} (hb : i[ki]? = some (b : ℕ)) {q β : ℕ} (hq : (T.iface b)[q]? = some β) :
    ∃ ψ Ψ, Response T E β ψ Ψ ∧ ∀ (ko : ℕ) (a : Fin T.N) (p α : ℕ), o[ko]? = some (a : ℕ) → (T.iface a)[p]? = some α →
      data (before T.width o ko + p) (before T.width i ki + q) = ψ α := by
  have hcol := green_column hT hB h hX (green_index hT B.M Sig hb hq)
  set c := before T.width i ki + q
  choose Ψ h1 h2 _ h4 using fun l => hS l (T.amp (fun γ => X γ c) l)
  refine ⟨fun γ => X γ c, Ψ, ⟨?_, h1, h2⟩, ?_⟩
  · intro α hα
    rw [← hcol α hα]
    congr 1
    exact Finset.sum_congr rfl fun l _ => by rw [h4]
  · intro ko a p α ha hp
    obtain ⟨h5, _⟩ := C95_greens (sysOk hT hB Sig) h
    exact hdata _ _ _ (by rw [h5]; exact green_index hT B.M Sig ha hp)

theorem fromLead_sub (l : Fin T.N) (f g : Fin (T.lead l).m → ℂ) (α : ℕ) : T.fromLead l (f - g) α = T.fromLead l f α - T.fromLead l g α := by
  unfold Open.fromLead
  rw [← Finset.sum_sub_distrib]
  refine Finset.sum_congr rfl fun p _ => ?_
  split <;> simp

/-- C117: without bound states, the response is unique. -/
theorem C117_unique (hT : T.Ok) {B : LeadBasis T} (hB : BasisOk E B) (hn : NoBoundState T E) {β : ℕ} {ψ ψ' : ℕ → ℂ} {Ψ Ψ' : (l : Fin T.N) → ℕ → Fin (T.lead l).n → ℂ}
    (h : Response T E β ψ Ψ) (h' : Response T E β ψ' Ψ') : (∀ α < T.ham.rows, ψ α = ψ' α) ∧ Ψ = Ψ' := by
  have hw : InfWave T E (fun α => ψ α - ψ' α) (fun l j => Ψ l j - Ψ' l j) := by
    constructor
    · intro α hα
      have h1 := h.region α hα
      have h2 := h'.region α hα
      simp only [mulVec_sub, fromLead_sub, mul_sub, Finset.sum_sub_distrib]
      linear_combination h2 - h1
    · intro l
      exact leadSolution_sub (h.lead l) (h'.lead l)
  choose c hc using fun l => outgoing_asymp (hB.data l) (h.outgoing l)
  choose c' hc' using fun l => outgoing_asymp (hB.data l) (h'.outgoing l)
  have hA := fun l => (hc l).sub (hc' l)
  have h0 := no_outgoing hT hB hw hA (fun l i => by simp)
  have hz := hn _ _ hw (fun l => by
    have := hA l
    unfold Asymp at this
    simp only [h0, zero_mul, zero_smul, Finset.sum_const_zero, sub_zero] at this
    exact this)
  exact ⟨fun α hα => sub_eq_zero.mp (hz.1 α hα), funext fun l => funext fun j => sub_eq_zero.mp (hz.2 l j)⟩

/-! ### The scattering matrix -/

/-- The block of the Green's function between two leads. -/
def greenBlock (T : Open) (X : ℕ → ℕ → ℂ) (i : List ℕ) (ki : ℕ) (l b : Fin T.N) : Matrix (Fin (T.lead l).m) (Fin (T.lead b).m) ℂ :=
  of fun p q => X ((T.iface l).getD p 0) (before T.width i ki + q)

/-- The scattering matrix from the Green's function. -/
theorem smatrix_of_green (hT : T.Ok) {B : LeadBasis T} (hB : BasisOk E B) {Sig} {outLeads inLeads : Option (List ℕ)} {check : Bool} {ls : LinearSys ℂ} {kv o i : List ℕ}
    (h : greensSetup (T.toSys B.M Sig) (E : ℂ) outLeads inLeads check = .ok (ls, kv, o, i)) {X : ℕ → ℕ → ℂ} (hX : Solves ls X) {ki : ℕ} {b : Fin T.N} (hb : i[ki]? = some (b : ℕ))
    {W : (l : Fin T.N) → Matrix (Fin (T.lead l).m) (Fin (B.M l).p) ℂ} {U : (l : Fin T.N) → Matrix (Fin (B.M l).p) (Fin (B.M l).p) ℂ}
    (hC : ∀ l, Coupling ((T.lead l).at E) (T.lead l).hop (B.M l) (B.sg l) (Sig l) (W l) (U l)) (m : Fin (B.M b).p) :
    ∃ s ψ Ψ, ScattWave E B b m s ψ Ψ ∧ (∀ l ≠ b, ∀ a : Fin (B.M l).p, s l a = (I • ((W l)ᴴ * greenBlock T X i ki l b * W b * U b)) a m) ∧
      ∀ a : Fin (B.M b).p, s b a = ((I • ((W b)ᴴ * greenBlock T X i ki b b * W b) - 1) * U b : Matrix (Fin (B.M b).p) (Fin (B.M b).p) ℂ) a m := by
  have hcol := fun (q : Fin (T.lead b).m) => green_column hT hB h hX (green_index hT B.M Sig hb (List.getElem?_eq_getElem (l := T.iface b) (i := q) (by rw [hT.width]; exact q.2)))
  let f : Fin (T.lead b).m → ℂ := I • (W b *ᵥ (U b).col m)
  let ψ : ℕ → ℂ := fun α => ∑ q : Fin (T.lead b).m, X α (before T.width i ki + q) * f q
  let inc : (l : Fin T.N) → Fin (B.M l).p → ℂ := fun l a => if l = b ∧ (a : ℕ) = m then 1 else 0
  have hamp : ∀ l, T.amp ψ l = greenBlock T X i ki l b *ᵥ f := fun l => rfl
  choose Ψ h1 h2 h3 using fun l => (hC l).exist (T.amp ψ l) (inc l)
  have hUb : U b *ᵥ inc b = (U b).col m := by
    ext a
    rw [Matrix.mulVec, dotProduct, Finset.sum_eq_single m]
    · simp [inc]
    · intro k _ hk
      have : ¬ ((k : ℕ) = m) := fun hx => hk (Fin.ext hx)
      simp [inc, this]
    · intro hx; exact absurd (Finset.mem_univ _) hx
  have hU0 : ∀ l ≠ b, inc l = 0 := by
    intro l hl
    ext a
    simp [inc, hl]
  let s : ℕ → ℕ → ℂ := fun l a => if hl : l < T.N then if ha : a < (B.M ⟨l, hl⟩).p then ((W ⟨l, hl⟩)ᴴ *ᵥ T.amp ψ ⟨l, hl⟩ - U ⟨l, hl⟩ *ᵥ inc ⟨l, hl⟩) ⟨a, ha⟩ else 0 else 0
  have hs : ∀ (l : Fin T.N) (a : Fin (B.M l).p), s l a = ((W l)ᴴ *ᵥ T.amp ψ l - U l *ᵥ inc l) a := by
    intro l a
    simp only [s]
    rw [dif_pos l.2, dif_pos a.2]
  refine ⟨s, ψ, Ψ, ⟨⟨?_, h1⟩, ?_⟩, ?_, ?_⟩
  · intro α hα
    have hsrc : ∑ q : Fin (T.lead b).m, (if α = (T.iface b)[(q : ℕ)]'(by rw [hT.width]; exact q.2) then 1 else 0) * f q = T.fromLead b f α := by
      unfold Open.fromLead
      refine Finset.sum_congr rfl fun q _ => ?_
      have hq : (q : ℕ) < (T.iface b).length := by rw [hT.width]; exact q.2
      have e : (T.iface b)[(q : ℕ)]? = some ((T.iface b)[(q : ℕ)]) := List.getElem?_eq_getElem hq
      rw [e, ite_mul, one_mul, zero_mul]
      by_cases hx : α = (T.iface b)[(q : ℕ)]
      · rw [if_pos hx, if_pos (by rw [hx])]
      · rw [if_neg hx, if_neg (fun hh => hx (Option.some.inj hh).symm)]
    have hlin : ∀ l, T.fromLead l (Sig l *ᵥ T.amp ψ l) α = ∑ q : Fin (T.lead b).m, T.fromLead l (Sig l *ᵥ T.amp (fun γ => X γ (before T.width i ki + q)) l) α * f q := by
      intro l
      rw [← sigma_apply hT B.M Sig l ψ α]
      simp only [← sigma_apply hT B.M Sig l _ α, ψ, Finset.mul_sum, Finset.sum_mul]
      rw [Finset.sum_comm]
      refine Finset.sum_congr rfl fun q _ => Finset.sum_congr rfl fun γ _ => ?_
      ring
    have hinc : ∑ l, T.fromLead l ((T.lead l).hopᴴ *ᵥ Ψ l 0) α = ∑ l, T.fromLead l (Sig l *ᵥ T.amp ψ l) α + T.fromLead b f α := by
      have h5 : ∀ l, T.fromLead l ((T.lead l).hopᴴ *ᵥ Ψ l 0) α = T.fromLead l (Sig l *ᵥ T.amp ψ l) α + if l = b then T.fromLead b f α else 0 := by
        intro l
        rw [h3]
        have e : ∀ x y : Fin (T.lead l).m → ℂ, T.fromLead l (x + y) α = T.fromLead l x α + T.fromLead l y α := by
          intro x y
          unfold Open.fromLead
          rw [← Finset.sum_add_distrib]
          refine Finset.sum_congr rfl fun p _ => ?_
          split <;> simp
        rw [e]
        congr 1
        by_cases hl : l = b
        · subst hl
          rw [if_pos rfl, hUb]
        · rw [if_neg hl, hU0 l hl, mulVec_zero, mulVec_zero, smul_zero]
          unfold Open.fromLead
          simp
      simp only [h5, Finset.sum_add_distrib]
      rw [Finset.sum_ite_eq', if_pos (Finset.mem_univ _)]
    rw [hinc]
    simp only [hlin]
    rw [← hsrc]
    have h6 : ∀ q : Fin (T.lead b).m, _ := fun q => congrArg (· * f q) (hcol q α hα)
    have h7 := Finset.sum_congr (rfl : (Finset.univ : Finset (Fin (T.lead b).m)) = _) fun q _ => h6 q
    rw [← h7]
    simp only [sub_mul, Finset.sum_sub_distrib, ψ, Finset.mul_sum, Finset.sum_mul]
    rw [Finset.sum_comm (s := range T.ham.rows), Finset.sum_comm (s := (Finset.univ : Finset (Fin T.N)))]
    simp only [mul_assoc]
    ring
  · intro l
    refine (h2 l).congr fun j => ?_
    congr 1
    refine Finset.sum_congr rfl fun k _ => ?_
    rcases k with k | k
    · rfl
    · rw [Sum.elim_inr, Sum.elim_inr, hs]
  · intro l hl a
    rw [hs, hU0 l hl, mulVec_zero, sub_zero, hamp]
    simp only [f, mulVec_smul (greenBlock T X i ki l b), mulVec_smul ((W l)ᴴ), mulVec_mulVec]
    rw [Pi.smul_apply, Matrix.smul_apply, smul_eq_mul, smul_eq_mul]
    congr 1
    simp only [Matrix.mulVec, dotProduct, mul_apply, Matrix.mul_assoc, col_apply]
  · intro a
    rw [hs, hUb, hamp, Matrix.sub_mul, Matrix.one_mul, Matrix.sub_apply, Pi.sub_apply, col_apply]
    congr 1
    simp only [f, mulVec_smul (greenBlock T X i ki b b), mulVec_smul ((W b)ᴴ), mulVec_mulVec]
    rw [Pi.smul_apply, Matrix.smul_mul, Matrix.smul_apply, smul_eq_mul, smul_eq_mul]
    congr 1
    simp only [Matrix.mulVec, dotProduct, mul_apply, Matrix.mul_assoc, col_apply]

/-! ### Traces -/

/-- An array and the matrix it stands for. -/
structure Rep {a b : ℕ} (A : System.Mat ℂ) (A' : Matrix (Fin a) (Fin b) ℂ) : Prop where
  rows : A.rows = a
  cols : A.cols = b
  val : ∀ (i : Fin a) (j : Fin b), A.val i j = A' i j

theorem rep_toMat {a b : ℕ} (A : Matrix (Fin a) (Fin b) ℂ) : Rep (toMat A) A := ⟨rfl, rfl, toMat_val A⟩

theorem Rep.dot {a b c : ℕ} {A B : System.Mat ℂ} {A' : Matrix (Fin a) (Fin b) ℂ} {B' : Matrix (Fin b) (Fin c) ℂ} (hA : Rep A A') (hB : Rep B B') : Rep (dotM A B) (A' * B') := by
  refine ⟨hA.rows, hB.cols, fun i j => ?_⟩
  unfold dotM
  simp only
  rw [hA.cols, Finset.sum_range, mul_apply]
  exact Finset.sum_congr rfl fun k _ => by rw [hA.val, hB.val]

theorem Rep.dagger {a b : ℕ} {A : System.Mat ℂ} {A' : Matrix (Fin a) (Fin b) ℂ} (hA : Rep A A') : Rep (daggerM A) A'ᴴ :=
  ⟨hA.cols, hA.rows, fun i j => by unfold daggerM; simp only; rw [hA.val, conjTranspose_apply]; rfl⟩

theorem Rep.gamma {a : ℕ} {A : System.Mat ℂ} {A' : Matrix (Fin a) (Fin a) ℂ} (hA : Rep A A') : Rep (gammaM A) (I • (A' - A'ᴴ)) :=
  ⟨hA.rows, hA.cols, fun i j => by unfold gammaM; simp only; rw [hA.val, hA.val, Matrix.smul_apply, Matrix.sub_apply, conjTranspose_apply]; rfl⟩

theorem Rep.trace {a : ℕ} {A : System.Mat ℂ} {A' : Matrix (Fin a) (Fin a) ℂ} (hA : Rep A A') : traceM A = A'.trace := by
  unfold traceM
  rw [hA.rows, Finset.sum_range]
  exact Finset.sum_congr rfl fun k _ => by rw [hA.val]; rfl

theorem sum_normSq {a b : ℕ} (S : Matrix (Fin a) (Fin b) ℂ) : ∑ i, ∑ j, Complex.normSq (S i j) = (S * Sᴴ).trace.re := by
  rw [Matrix.trace, re_sum]
  refine Finset.sum_congr rfl fun i _ => ?_
  rw [diag_apply, mul_apply, re_sum]
  refine Finset.sum_congr rfl fun j _ => ?_
  rw [conjTranspose_apply, star_def, mul_conj, ofReal_re]

/-- The transmission between different leads. -/
theorem trace_off {m m' p p' : ℕ} {W : Matrix (Fin m) (Fin p) ℂ} {W' : Matrix (Fin m') (Fin p') ℂ} {U' : Matrix (Fin p') (Fin p') ℂ} (hU : U'ᴴ * U' = 1) (g : Matrix (Fin m) (Fin m') ℂ) :
    ((I • (Wᴴ * g * W' * U')) * (I • (Wᴴ * g * W' * U'))ᴴ).trace = (W * Wᴴ * g * (W' * W'ᴴ) * gᴴ).trace := by
  have hU' : U' * U'ᴴ = 1 := mul_eq_one_comm.mp hU
  rw [conjTranspose_smul, Matrix.smul_mul, Matrix.mul_smul, smul_smul, star_def, conj_I, mul_neg, I_mul_I, neg_neg, one_smul]
  have e : Wᴴ * g * W' * U' * (Wᴴ * g * W' * U')ᴴ = Wᴴ * (g * (W' * W'ᴴ) * gᴴ * W) := by
    rw [conjTranspose_mul, Matrix.mul_assoc (Wᴴ * g * W') U', ← Matrix.mul_assoc U', hU', Matrix.one_mul]
    simp only [conjTranspose_mul, conjTranspose_conjTranspose, Matrix.mul_assoc]
  rw [e, trace_mul_comm, Matrix.mul_assoc (g * (W' * W'ᴴ) * gᴴ), trace_mul_comm]
  simp only [Matrix.mul_assoc]

/-- The reflection. -/
theorem trace_same {m p : ℕ} {W : Matrix (Fin m) (Fin p) ℂ} {U : Matrix (Fin p) (Fin p) ℂ} (hU : Uᴴ * U = 1) (g : Matrix (Fin m) (Fin m) ℂ) :
    (((I • (Wᴴ * g * W) - 1) * U) * ((I • (Wᴴ * g * W) - 1) * U)ᴴ).trace.re = (W * Wᴴ * g * (W * Wᴴ) * gᴴ).trace.re + (2 * (W * Wᴴ * g).trace.im + p) := by
  have hU' : U * Uᴴ = 1 := mul_eq_one_comm.mp hU
  have e : ((I • (Wᴴ * g * W) - 1) * U) * ((I • (Wᴴ * g * W) - 1) * U)ᴴ = (I • (Wᴴ * g * W)) * (I • (Wᴴ * g * W))ᴴ - I • (Wᴴ * g * W) - (I • (Wᴴ * g * W))ᴴ + 1 := by
    rw [conjTranspose_mul, Matrix.mul_assoc, ← Matrix.mul_assoc U, hU', Matrix.one_mul, conjTranspose_sub, conjTranspose_one, Matrix.sub_mul, Matrix.mul_sub, Matrix.one_mul, Matrix.mul_one]
    abel
  have h1 := trace_off (W := W) (W' := W) (U' := 1) (by rw [conjTranspose_one, Matrix.one_mul]) g
  rw [Matrix.mul_one] at h1
  have h2 : (Wᴴ * g * W).trace = (W * Wᴴ * g).trace := by rw [trace_mul_comm, ← Matrix.mul_assoc]
  rw [e, trace_add, trace_sub, trace_sub, h1, trace_conjTranspose, trace_smul, h2, trace_one, add_re, sub_re, sub_re]
  simp
  ring

/-- C117: the transmissions computed from the Green's function are those of the scattering matrix. -/
theorem C117_fisher_lee (hT : T.Ok) {B : LeadBasis T} (hB : BasisOk E B) {Sig} (hS : SelfenergiesOk T E Sig) {outLeads inLeads : Option (List ℕ)} {check : Bool} {ls : LinearSys ℂ} {kv o i : List ℕ}
    (h : greensSetup (T.toSys B.M Sig) (E : ℂ) outLeads inLeads check = .ok (ls, kv, o, i)) {X : ℕ → ℕ → ℂ} (hX : Solves ls X) {gf : GF}
    (hdata : ∀ p c r, kv[p]? = some r → gf.data p c = X r c) (hsig : gf.sigma = List.ofFn fun l => toMat (Sig l)) (ho : gf.outLeads = o) (hi : gf.inLeads = i)
    {eps : ℝ} {a b : Fin T.N} (hN : gf.nChan b = channels (Sig b) eps) (heps : Resolved (Sig b) eps) (ha : (a : ℕ) ∈ o) (hb : (b : ℕ) ∈ i) {S : FullS} (hSm : IsSmatrix E B S) :
    gf.trans a b = .ok (Solver.trans B.num S a b) := by
  choose W U hC using fun l => lead_coupling (hB.data l) (hS l)
  obtain ⟨hon, hin⟩ : o.Nodup ∧ i.Nodup := by
    unfold greensSetup at h
    split at h
    · cases h
    · rename_i o' i' hl
      obtain ⟨_, h2, h3, _, _⟩ := (C94_lists _ _ _ _).mp hl
      split at h
      · cases h
      · split at h
        · cases h
        · cases h
          exact ⟨h2.imp fun h => ne_of_lt h, h3.imp fun h => ne_of_lt h⟩
  obtain ⟨ko, hko, hko'⟩ := List.getElem_of_mem ha
  obtain ⟨ki, hki, hki'⟩ := List.getElem_of_mem hb
  have eo : o[ko]? = some (a : ℕ) := by rw [List.getElem?_eq_getElem hko, hko']
  have ei : i[ki]? = some (b : ℕ) := by rw [List.getElem?_eq_getElem hki, hki']
  obtain ⟨hkv, _⟩ := C95_greens (sysOk hT hB Sig) h
  -- the program
  have hinfo : ∀ l : Fin T.N, gf.info l = .ok (toMat (Sig l)) := by
    intro l
    unfold GF.info
    rw [hsig, List.getElem?_ofFn, dif_pos l.2]
  have hsizes : gf.sizes = T.width := by
    funext k
    unfold GF.sizes
    rw [hsig, List.getElem?_ofFn]
    by_cases hk : k < T.N
    · rw [dif_pos hk, Open.width, dif_pos hk]
      rfl
    · rw [dif_neg hk, Open.width, dif_neg hk]
      rfl
  obtain ⟨gm, hsub, hrep⟩ : ∃ gm, gf.submatrix a b = .ok gm ∧ Rep gm (greenBlock T X i ki a b) := by
    unfold GF.submatrix
    rw [ho, hi, C55_slice _ hon ko a eo, C55_slice _ hin ki b ei]
    simp only [Nat.add_sub_cancel_left]
    refine ⟨_, rfl, ?_, ?_, ?_⟩
    · simp only [hsizes, width_fin]
    · simp only [hsizes, width_fin]
    · intro p q
      simp only [hsizes]
      have hp : (p : ℕ) < (T.iface a).length := by rw [hT.width]; exact p.2
      have e := List.getElem?_eq_getElem hp
      rw [hdata _ _ _ (by rw [hkv]; exact green_index hT B.M Sig eo e)]
      rw [greenBlock, of_apply, List.getD_eq_getElem?_getD, e, Option.getD_some]
  have hG : ∀ l, Rep (gammaM (toMat (Sig l))) (W l * (W l)ᴴ) := by
    intro l
    have := (rep_toMat (Sig l)).gamma
    rw [(hC l).gamma] at this
    exact this
  have hatt : gf.attda a b = .ok (dotM (dotM (dotM (gammaM (toMat (Sig a))) gm) (gammaM (toMat (Sig b)))) (daggerM gm)) := by
    unfold GF.attda
    rw [hsub, hinfo a, hinfo b]
  have htr := ((((hG a).dot hrep).dot (hG b)).dot hrep.dagger).trace
  -- the scattering matrix
  have hnum : ∀ l : Fin T.N, B.num l = (B.M l).p := fun l => dif_pos l.2
  have hS1 : ∀ m : Fin (B.M b).p, ∃ s : ℕ → ℕ → ℂ, (∀ (l : Fin T.N) (k : Fin (B.M l).p), S l k b m = s l k) ∧
      (∀ l ≠ b, ∀ k : Fin (B.M l).p, s l k = (I • ((W l)ᴴ * greenBlock T X i ki l b * W b * U b)) k m) ∧
      ∀ k : Fin (B.M b).p, s b k = ((I • ((W b)ᴴ * greenBlock T X i ki b b * W b) - 1) * U b : Matrix (Fin (B.M b).p) (Fin (B.M b).p) ℂ) k m := by
    intro m
    obtain ⟨s, ψ, Ψ, hw, h1, h2⟩ := smatrix_of_green hT hB h hX ei hC m
    obtain ⟨ψ', Ψ', hw'⟩ := hSm b m m.2
    exact ⟨s, fun l k => scatt_unique hT hB hw' hw l k k.2, h1, h2⟩
  have htrans : Solver.trans B.num S a b = ∑ k : Fin (B.M a).p, ∑ m : Fin (B.M b).p, Complex.normSq (S a k b m) := by
    unfold Solver.trans
    rw [hnum, hnum, Finset.sum_range]
    exact Finset.sum_congr rfl fun k _ => by rw [Finset.sum_range]
  unfold GF.trans
  rw [hatt]
  simp only
  rw [htr]
  by_cases hab : a = b
  · subst hab
    rw [if_pos rfl, hinfo a, hsub]
    simp only
    rw [((hG a).dot hrep).trace, hN, htrans]
    congr 1
    have hch : channels (Sig a) eps = (B.M a).p := coupling_rank (hC a) (gamma_herm (Sig a)) heps.1 heps.2
    rw [hch, ← trace_same (hC a).unit, ← sum_normSq]
    refine Finset.sum_congr rfl fun k _ => Finset.sum_congr rfl fun m _ => ?_
    obtain ⟨s, h1, _, h3⟩ := hS1 m
    rw [h1, h3]
  · rw [if_neg (fun hx => hab (Fin.ext hx)), htrans]
    congr 1
    rw [← trace_off (hC b).unit, ← sum_normSq]
    refine Finset.sum_congr rfl fun k _ => Finset.sum_congr rfl fun m _ => ?_
    obtain ⟨s, h1, h2, _⟩ := hS1 m
    rw [h1, h2 a hab]

/-- C117: if the Green's function between all leads exists, then so does the scattering matrix. -/
theorem C117_exists (hT : T.Ok) {B : LeadBasis T} (hB : BasisOk E B) {Sig} (hS : SelfenergiesOk T E Sig) {outLeads inLeads : Option (List ℕ)} {check : Bool} {ls : LinearSys ℂ} {kv o i : List ℕ}
    (h : greensSetup (T.toSys B.M Sig) (E : ℂ) outLeads inLeads check = .ok (ls, kv, o, i)) {X : ℕ → ℕ → ℂ} (hX : Solves ls X) (hi : ∀ l : Fin T.N, (l : ℕ) ∈ i) : ∃ S, IsSmatrix E B S := by
  choose W U hC using fun l => lead_coupling (hB.data l) (hS l)
  have h1 : ∀ (b : Fin T.N) (m : Fin (B.M b).p), ∃ s ψ Ψ, ScattWave E B b m s ψ Ψ := by
    intro b m
    obtain ⟨ki, hki, hki'⟩ := List.getElem_of_mem (hi b)
    obtain ⟨s, ψ, Ψ, hw, _⟩ := smatrix_of_green hT hB h hX (by rw [List.getElem?_eq_getElem hki, hki']) hC m
    exact ⟨s, ψ, Ψ, hw⟩
  choose s ψ Ψ hw using h1
  refine ⟨fun l a i b => if hi : i < T.N then if hb : b < (B.M ⟨i, hi⟩).p then s ⟨i, hi⟩ ⟨b, hb⟩ l a else 0 else 0, fun i b hb => ⟨ψ i ⟨b, hb⟩, Ψ i ⟨b, hb⟩, ?_⟩⟩
  have e : (fun l a => if hi : (i : ℕ) < T.N then if hb : b < (B.M ⟨i, hi⟩).p then s ⟨i, hi⟩ ⟨b, hb⟩ l a else 0 else 0) = s i ⟨b, hb⟩ := by
    funext l a
    rw [dif_pos i.2, dif_pos hb]
  rw [e]
  exact hw i ⟨b, hb⟩

end Kwant.Scatt
