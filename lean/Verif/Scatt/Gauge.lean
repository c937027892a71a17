import Verif.Scatt.AddCellTrans
import Verif.Scatt.Ldos
import Verif.Scatt.Reorder

/-!
C197: the choice of the gauge, and of the local basis, in the scattering region.
-/

set_option linter.unusedSectionVars false

namespace Kwant.Scatt
open Finset Complex Filter
open Matrix hiding mulVec
open Kwant.Leads hiding Modes
open Kwant.Solver hiding transmission LErr mulVec

variable {T : Open} {E : ℝ}

/-! ### Specification -/

/-- `ham` is the Hamiltonian of the scattering region in another orthonormal basis: `V H V†`, where `V` is unitary and multiplies all orbitals at the interface of lead `l` with the same phase `c l`. -/
structure GaugeTrans (T : Open) (ham : System.Mat ℂ) (v : ℕ → ℕ → ℂ) (c : ℕ → ℂ) : Prop where
  rows : ham.rows = T.ham.rows
  cols : ham.cols = T.ham.cols
  left : ∀ α < T.ham.rows, ∀ β < T.ham.rows, ∑ γ ∈ range T.ham.rows, star (v γ α) * v γ β = if α = β then 1 else 0
  right : ∀ α < T.ham.rows, ∀ β < T.ham.rows, ∑ γ ∈ range T.ham.rows, v α γ * star (v β γ) = if α = β then 1 else 0
  val : ∀ α < T.ham.rows, ∀ β < T.ham.rows, ham.val α β = ∑ γ ∈ range T.ham.rows, ∑ δ ∈ range T.ham.rows, v α γ * T.ham.val γ δ * star (v β δ)
  iface : ∀ l : Fin T.N, ∀ α ∈ T.iface l, ∀ β < T.ham.rows, v β α = if β = α then c l else 0
  phase : ∀ l : Fin T.N, c l * star (c l) = 1

/-- The same leads, with the other Hamiltonian of the scattering region. -/
@[reducible] def Open.withGauge (T : Open) (ham : System.Mat ℂ) : Open := T.withRegion ham T.norb fun x => (T.lead x).interface

/-- The modes do not change. -/
@[reducible] def LeadBasis.withGauge {T : Open} (B : LeadBasis T) (ham : System.Mat ℂ) : LeadBasis (T.withGauge ham) := ⟨B.M, B.sg⟩

/-- A wave in the other basis. -/
def gaugeWave (n : ℕ) (v : ℕ → ℕ → ℂ) (ψ : ℕ → ℂ) (α : ℕ) : ℂ := ∑ β ∈ range n, v α β * ψ β

/-- The scattering matrix between the other phases. -/
def gaugeS (c : ℕ → ℂ) (S : FullS) : FullS := fun l a i b => c l * star (c i) * S l a i b

/-! ### The transformed system -/

variable {ham : System.Mat ℂ} {v : ℕ → ℕ → ℂ} {c : ℕ → ℂ}

theorem BasisOk.withGauge {B : LeadBasis T} (hB : BasisOk E B) : BasisOk E (B.withGauge ham) := ⟨hB.herm, hB.spec, hB.incoming, hB.outgoing, hB.number, hB.size⟩

theorem iface_mem_lt (hT : T.Ok) (x : Fin T.N) {α : ℕ} (h : α ∈ T.iface x) : α < T.ham.rows := by
  obtain ⟨p, hp⟩ := List.mem_iff_getElem?.mp h
  exact iface_lt hT x hp

theorem GaugeTrans.row (hT : T.Ok) (hG : GaugeTrans T ham v c) (l : Fin T.N) {α : ℕ} (hα : α ∈ T.iface l) {β : ℕ} (hβ : β < T.ham.rows) : v α β = if α = β then c l else 0 := by
  have hlt := iface_mem_lt hT l hα
  have h1 := hG.left α hlt β hβ
  rw [Finset.sum_congr rfl fun γ hγ => by rw [hG.iface l α hα γ (Finset.mem_range.mp hγ)], Finset.sum_eq_single α (fun γ _ hne => by rw [if_neg hne, star_zero, zero_mul])
    fun h => absurd (Finset.mem_range.mpr hlt) h, if_pos rfl] at h1
  have h2 := congrArg (fun z => c l * z) h1
  change c l * (star (c l) * v α β) = c l * (if α = β then 1 else 0) at h2
  rw [← mul_assoc, hG.phase, one_mul] at h2
  rw [h2, mul_ite, mul_one, mul_zero]

/-- `V† V = 1` applied to a wave. -/
theorem GaugeTrans.cancel (hG : GaugeTrans T ham v c) (ψ : ℕ → ℂ) {δ : ℕ} (hδ : δ < T.ham.rows) : ∑ β ∈ range T.ham.rows, star (v β δ) * gaugeWave T.ham.rows v ψ β = ψ δ := by
  have h1 : ∀ β, star (v β δ) * gaugeWave T.ham.rows v ψ β = ∑ ε ∈ range T.ham.rows, star (v β δ) * v β ε * ψ ε := by
    intro β
    rw [gaugeWave, Finset.mul_sum]
    exact Finset.sum_congr rfl fun ε _ => by ring
  rw [Finset.sum_congr rfl fun β _ => h1 β, Finset.sum_comm]
  have h2 : ∀ ε ∈ range T.ham.rows, ∑ β ∈ range T.ham.rows, star (v β δ) * v β ε * ψ ε = if δ = ε then ψ ε else 0 := by
    intro ε hε
    rw [← Finset.sum_mul, hG.left δ hδ ε (Finset.mem_range.mp hε), ite_mul, one_mul, zero_mul]
  rw [Finset.sum_congr rfl h2, Finset.sum_ite_eq, if_pos (Finset.mem_range.mpr hδ)]

/-- The inverse transformation. -/
theorem GaugeTrans.inverse (hT : T.Ok) (hG : GaugeTrans T ham v c) : GaugeTrans (T.withGauge ham) T.ham (fun α β => star (v β α)) (fun l => star (c l)) := by
  have hr : (T.withGauge ham).ham.rows = T.ham.rows := hG.rows
  refine ⟨hG.rows.symm, hG.cols.symm, ?_, ?_, ?_, ?_, ?_⟩
  · intro α hα β hβ
    rw [hr] at hα hβ ⊢
    rw [← hG.right α hα β hβ]
    exact Finset.sum_congr rfl fun γ _ => by rw [star_star]
  · intro α hα β hβ
    rw [hr] at hα hβ ⊢
    rw [← hG.left α hα β hβ]
    exact Finset.sum_congr rfl fun γ _ => by rw [star_star]
  · intro α hα β hβ
    rw [hr] at hα hβ ⊢
    change T.ham.val α β = ∑ γ ∈ range T.ham.rows, ∑ δ ∈ range T.ham.rows, star (v γ α) * ham.val γ δ * star (star (v δ β))
    have h1 : ∀ γ ∈ range T.ham.rows, ∑ δ ∈ range T.ham.rows, star (v γ α) * ham.val γ δ * star (star (v δ β)) = star (v γ α) * ∑ ε ∈ range T.ham.rows, v γ ε * T.ham.val ε β := by
      intro γ hγ
      have h2 : ∀ δ ∈ range T.ham.rows, star (v γ α) * ham.val γ δ * star (star (v δ β)) = star (v γ α) * ∑ ε ∈ range T.ham.rows, ∑ ζ ∈ range T.ham.rows, v γ ε * T.ham.val ε ζ * (star (v δ ζ) * v δ β) := by
        intro δ hδ
        rw [hG.val γ (Finset.mem_range.mp hγ) δ (Finset.mem_range.mp hδ), star_star, mul_assoc, Finset.sum_mul]
        congr 1
        refine Finset.sum_congr rfl fun ε _ => ?_
        rw [Finset.sum_mul]
        exact Finset.sum_congr rfl fun ζ _ => by ring
      rw [Finset.sum_congr rfl h2, ← Finset.mul_sum, Finset.sum_comm]
      congr 1
      refine Finset.sum_congr rfl fun ε _ => ?_
      rw [Finset.sum_comm]
      rw [Finset.sum_congr rfl fun ζ hζ => by rw [← Finset.mul_sum, hG.left ζ (Finset.mem_range.mp hζ) β hβ]]
      simp only [mul_ite, mul_one, mul_zero]
      rw [Finset.sum_ite_eq' , if_pos (Finset.mem_range.mpr hβ)]
    rw [Finset.sum_congr rfl h1]
    have h3 := hG.cancel (fun ε => T.ham.val ε β) hα
    exact h3.symm
  · intro l α hα β hβ
    rw [hr] at hβ
    rw [hG.row hT l (α := α) hα hβ]
    by_cases h : α = β
    · rw [if_pos h, if_pos h.symm]
    · rw [if_neg h, if_neg (Ne.symm h), star_zero]
  · intro l
    rw [star_star, mul_comm]
    exact hG.phase l

/-- C197: the transformed system is again a system with a Hermitian Hamiltonian and attached leads. -/
theorem gauge_ok (hT : T.Ok) (hG : GaugeTrans T ham v c) : (T.withGauge ham).Ok := by
  refine ⟨?_, ?_, ?_, hT.iface, hT.width⟩
  · change ham.cols = ham.rows
    rw [hG.rows, hG.cols, hT.square]
  · change ham.rows = T.norb.sum
    rw [hG.rows, hT.size]
  · intro α hα β hβ
    change α < ham.rows at hα
    change β < ham.rows at hβ
    change star (ham.val α β) = ham.val β α
    rw [hG.rows] at hα hβ
    rw [hG.val α hα β hβ, hG.val β hβ α hα, star_sum]
    simp only [star_sum]
    rw [Finset.sum_comm]
    refine Finset.sum_congr rfl fun δ hδ => Finset.sum_congr rfl fun γ hγ => ?_
    rw [star_mul', star_mul', star_star, hT.herm γ (Finset.mem_range.mp hγ) δ (Finset.mem_range.mp hδ)]
    ring

/-! ### Waves -/

/-- C197: waves in the other basis are waves of the other system. -/
theorem C197_waves (hT : T.Ok) (hG : GaugeTrans T ham v c) {ψ : ℕ → ℂ} {Ψ : (l : Fin T.N) → ℕ → Fin (T.lead l).n → ℂ} (hw : InfWave T E ψ Ψ) :
    InfWave (T.withGauge ham) E (gaugeWave T.ham.rows v ψ) (fun l j => c l • Ψ l j) := by
  refine ⟨fun α hα => ?_, fun l => ?_⟩
  · change α < ham.rows at hα
    rw [hG.rows] at hα
    have h1 : ∑ β ∈ range ham.rows, ham.val α β * gaugeWave T.ham.rows v ψ β = ∑ γ ∈ range T.ham.rows, v α γ * ∑ δ ∈ range T.ham.rows, T.ham.val γ δ * ψ δ := by
      rw [hG.rows]
      have h2 : ∀ β ∈ range T.ham.rows, ham.val α β * gaugeWave T.ham.rows v ψ β = ∑ γ ∈ range T.ham.rows, ∑ δ ∈ range T.ham.rows, v α γ * T.ham.val γ δ * (star (v β δ) * gaugeWave T.ham.rows v ψ β) := by
        intro β hβ
        rw [hG.val α hα β (Finset.mem_range.mp hβ), Finset.sum_mul]
        refine Finset.sum_congr rfl fun γ _ => ?_
        rw [Finset.sum_mul]
        exact Finset.sum_congr rfl fun δ _ => by ring
      rw [Finset.sum_congr rfl h2, Finset.sum_comm]
      refine Finset.sum_congr rfl fun γ _ => ?_
      rw [Finset.sum_comm, Finset.mul_sum]
      refine Finset.sum_congr rfl fun δ hδ => ?_
      rw [← Finset.mul_sum, hG.cancel ψ (Finset.mem_range.mp hδ), mul_assoc]
    have h3 : ∀ l : Fin T.N, (T.withGauge ham).fromLead l ((T.lead l).hopᴴ *ᵥ (c l • Ψ l 0)) α = ∑ γ ∈ range T.ham.rows, v α γ * T.fromLead l ((T.lead l).hopᴴ *ᵥ Ψ l 0) γ := by
      intro l
      change ∑ p : Fin (T.lead l).m, (if (T.iface l)[(p : ℕ)]? = some α then ((T.lead l).hopᴴ *ᵥ (c l • Ψ l 0)) p else 0) = _
      unfold Open.fromLead
      simp only [Finset.mul_sum]
      rw [Finset.sum_comm]
      refine Finset.sum_congr rfl fun p _ => ?_
      have hp : (p : ℕ) < (T.iface l).length := by
        rw [hT.width l]
        exact p.2
      rw [List.getElem?_eq_getElem hp]
      have hm : (T.iface l)[(p : ℕ)] ∈ T.iface l := List.getElem_mem hp
      have hlt := iface_mem_lt hT l hm
      rw [Finset.sum_eq_single (T.iface l)[(p : ℕ)] (fun γ _ hne => by rw [if_neg (fun h => hne (Option.some.inj h).symm), mul_zero]) (fun h => absurd (Finset.mem_range.mpr hlt) h), if_pos rfl,
        hG.iface l _ hm α hα, mulVec_smul]
      by_cases h : α = (T.iface l)[(p : ℕ)]
      · rw [if_pos h, if_pos (by rw [h])]
        rfl
      · rw [if_neg h, if_neg (fun h' => h (Option.some.inj h').symm), zero_mul]
    change (∑ β ∈ range ham.rows, ham.val α β * gaugeWave T.ham.rows v ψ β) - E * gaugeWave T.ham.rows v ψ α + (∑ l : Fin T.N, (T.withGauge ham).fromLead l ((T.lead l).hopᴴ *ᵥ (c l • Ψ l 0)) α) = 0
    rw [h1, Finset.sum_congr rfl fun l _ => h3 l, Finset.sum_comm, gaugeWave, Finset.mul_sum, ← Finset.sum_sub_distrib, ← Finset.sum_add_distrib]
    refine Finset.sum_eq_zero fun γ hγ => ?_
    have h4 := congrArg (fun z => v α γ * z) (hw.region γ (Finset.mem_range.mp hγ))
    simp only [mul_zero] at h4
    rw [← h4, ← Finset.mul_sum]
    ring
  · have ha : (T.withGauge ham).amp (gaugeWave T.ham.rows v ψ) l = T.amp (fun α => c l * ψ α) l := by
      ext p
      change gaugeWave T.ham.rows v ψ ((T.iface l).getD p 0) = c l * ψ ((T.iface l).getD p 0)
      have hp : (p : ℕ) < (T.iface l).length := by
        rw [hT.width l]
        exact p.2
      rw [List.getD_eq_getElem?_getD, List.getElem?_eq_getElem hp, Option.getD_some]
      have hm : (T.iface l)[(p : ℕ)] ∈ T.iface l := List.getElem_mem hp
      have hlt := iface_mem_lt hT l hm
      rw [gaugeWave, Finset.sum_eq_single (T.iface l)[(p : ℕ)] (fun γ hγ hne => by rw [hG.row hT l hm (Finset.mem_range.mp hγ), if_neg (Ne.symm hne), zero_mul]) (fun h => absurd (Finset.mem_range.mpr hlt) h),
        hG.row hT l hm hlt, if_pos rfl]
    have h1 := (hw.smul (c l)).lead l
    rw [ha]
    exact h1

/-- C197: scattering states in the other basis are scattering states of the other system; the amplitudes get the phases of the leads. -/
theorem C197_states (hT : T.Ok) (hG : GaugeTrans T ham v c) {B : LeadBasis T} {i : Fin T.N} {b : ℕ} {s : ℕ → ℕ → ℂ} {ψ : ℕ → ℂ} {Ψ : (l : Fin T.N) → ℕ → Fin (T.lead l).n → ℂ}
    (hw : ScattWave E B i b s ψ Ψ) :
    ScattWave E (B.withGauge ham) i b (fun l a => c l * star (c i) * s l a) (fun α => star (c i) * gaugeWave T.ham.rows v ψ α) (fun l j => star (c i) • (c l • Ψ l j)) := by
  refine ⟨(C197_waves hT hG hw.1).smul _, fun l => ?_⟩
  change Fin T.N at l
  have h1 := ((hw.2 l).smul (c l)).smul (star (c i))
  refine (congrArg (fun a => Asymp (B.M l) (B.sg l) a _) ?_).mp h1
  funext x
  rcases x with x | x
  · simp only [Sum.elim_inl]
    by_cases hx : l = i ∧ (x : ℕ) = b
    · rw [if_pos hx, hx.1, mul_one, mul_comm]
      exact hG.phase i
    · rw [if_neg hx, mul_zero, mul_zero]
  · simp only [Sum.elim_inr]
    ring

/-- C197: the scattering matrix is the same up to the phases of the leads. -/
theorem C197_smatrix (hT : T.Ok) (hG : GaugeTrans T ham v c) {B : LeadBasis T} {S : FullS} : IsSmatrix E B S ↔ IsSmatrix E (B.withGauge ham) (gaugeS c S) := by
  constructor
  · intro h i b hb
    obtain ⟨ψ, Ψ, hw⟩ := h i b hb
    exact ⟨_, _, C197_states hT hG hw⟩
  · intro h i b hb
    obtain ⟨ψ, Ψ, hw⟩ := h i b hb
    have h1 := C197_states (gauge_ok hT hG) (hG.inverse hT) hw
    refine ⟨_, _, h1.1, fun l => ?_⟩
    refine (congrArg (fun a => Asymp (B.M l) (B.sg l) a _) ?_).mp (h1.2 l)
    funext x
    rcases x with x | x
    · rfl
    · simp only [Sum.elim_inr, gaugeS, star_star]
      have e1 := hG.phase l
      have e2 := hG.phase i
      calc star (c l) * c i * (c l * star (c i) * S l x i b) = (c l * star (c l)) * (c i * star (c i)) * S l x i b := by ring
        _ = S l x i b := by rw [e1, e2, one_mul, one_mul]

/-- C197: without phases at the interfaces the scattering matrix is the same. -/
theorem C197_same (hT : T.Ok) (hG : GaugeTrans T ham v fun _ => 1) {B : LeadBasis T} {S : FullS} : IsSmatrix E B S ↔ IsSmatrix E (B.withGauge ham) S := by
  have h := C197_smatrix (E := E) hT hG (B := B) (S := S)
  have e : gaugeS (fun _ => 1) S = S := by
    funext l a i b
    simp [gaugeS]
  rwa [e] at h

/-- C197: the transmissions are the same. -/
theorem C197_transmission (hT : T.Ok) (hG : GaugeTrans T ham v c) {B : LeadBasis T} (hB : BasisOk E B) {S S' : FullS} (h : IsSmatrix E B S) (h' : IsSmatrix E (B.withGauge ham) S') (x y : Fin T.N) :
    trans B.num S' x y = trans B.num S x y := by
  have hnum : ∀ x : Fin T.N, B.num x = (B.M x).p := fun x => dif_pos x.2
  unfold Solver.trans
  simp only [hnum, Finset.sum_range]
  refine Finset.sum_congr rfl fun a _ => Finset.sum_congr rfl fun b _ => ?_
  have h1 := C116_unique (gauge_ok hT hG) hB.withGauge h' ((C197_smatrix hT hG).mp h) x y a b a.2 b.2
  rw [h1, gaugeS]
  have hn : ∀ l : Fin T.N, normSq (c l) = 1 := by
    intro l
    have h2 := hG.phase l
    rw [show star (c l) = (starRingEnd ℂ) (c l) from rfl, mul_conj] at h2
    exact_mod_cast h2
  rw [normSq_mul, normSq_mul, hn, show star (c (y : ℕ)) = (starRingEnd ℂ) (c y) from rfl, normSq_conj, hn, one_mul, one_mul]

theorem C197_bound_of (hT : T.Ok) (hG : GaugeTrans T ham v c) (hn : NoBoundState (T.withGauge ham) E) : NoBoundState T E := by
  intro ψ Ψ hw hd
  have hc : ∀ l : Fin T.N, c l ≠ 0 := by
    intro l h0
    have := hG.phase l
    rw [h0, zero_mul] at this
    exact zero_ne_one this
  obtain ⟨h1, h2⟩ := hn _ _ (C197_waves hT hG hw) fun l => by
    have := (hd l).const_smul (c l)
    rwa [smul_zero] at this
  refine ⟨fun α hα => ?_, fun l j => ?_⟩
  · rw [← hG.cancel ψ hα]
    refine Finset.sum_eq_zero fun β hβ => ?_
    rw [h1 β (by change β < ham.rows; rw [hG.rows]; exact Finset.mem_range.mp hβ), mul_zero]
  · have h3 : c l • Ψ l j = 0 := h2 l j
    exact (smul_eq_zero.mp h3).resolve_left (hc l)

/-- C197: the energies of bound states are the same. -/
theorem C197_bound (hT : T.Ok) (hG : GaugeTrans T ham v c) : NoBoundState (T.withGauge ham) E ↔ NoBoundState T E :=
  ⟨C197_bound_of hT hG, C197_bound_of (gauge_ok hT hG) (hG.inverse hT)⟩

/-- C197: a gauge transformation (each orbital gets a phase) does not change the densities of the scattering states, `|wave_function(lead)[mode, orbital]|²`. -/
theorem C197_density (hT : T.Ok) (hG : GaugeTrans T ham v c) (hd : ∀ α < T.ham.rows, ∀ β < T.ham.rows, α ≠ β → v α β = 0) {B : LeadBasis T} (hB : BasisOk E B) (hn : NoBoundState T E)
    {i : Fin T.N} {b : ℕ} {s s' : ℕ → ℕ → ℂ} {ψ ψ' : ℕ → ℂ} {Ψ Ψ' : (l : Fin T.N) → ℕ → Fin (T.lead l).n → ℂ} (h : ScattWave E B i b s ψ Ψ) (h' : ScattWave E (B.withGauge ham) i b s' ψ' Ψ')
    {α : ℕ} (hα : α < T.ham.rows) : normSq (ψ' α) = normSq (ψ α) := by
  have h1 := (C118_unique (gauge_ok hT hG) hB.withGauge ((C197_bound hT hG).mpr hn) h' (C197_states hT hG h)).1 α (by change α < ham.rows; rw [hG.rows]; exact hα)
  rw [h1]
  have h2 : gaugeWave T.ham.rows v ψ α = v α α * ψ α := by
    rw [gaugeWave, Finset.sum_eq_single α (fun β hβ hne => by rw [hd α hα β (Finset.mem_range.mp hβ) (Ne.symm hne), zero_mul]) fun h => absurd (Finset.mem_range.mpr hα) h]
  have norm1 : ∀ z : ℂ, z * star z = 1 → normSq z = 1 := by
    intro z hz
    rw [show star z = (starRingEnd ℂ) z from rfl, mul_conj] at hz
    exact_mod_cast hz
  have h3 : normSq (v α α) = 1 := by
    have h4 := hG.right α hα α hα
    rw [Finset.sum_eq_single α (fun β hβ hne => by rw [hd α hα β (Finset.mem_range.mp hβ) (Ne.symm hne), zero_mul]) (fun h => absurd (Finset.mem_range.mpr hα) h), if_pos rfl] at h4
    exact norm1 _ h4
  rw [h2, normSq_mul, normSq_mul, h3, show star (c (i : ℕ)) = (starRingEnd ℂ) (c i) from rfl, normSq_conj, norm1 _ (hG.phase i), one_mul, one_mul]

/-! ### Gauge transformations -/

/-- A gauge transformation: each orbital gets a phase. -/
def phaseHam (h : System.Mat ℂ) (u : ℕ → ℂ) : System.Mat ℂ := ⟨h.rows, h.cols, fun α β => u α * h.val α β * star (u β)⟩

/-- C197: gauge transformations with a common phase at the interface of each lead are covered. -/
theorem C197_gauge (hT : T.Ok) {u : ℕ → ℂ} (hu : ∀ α < T.ham.rows, u α * star (u α) = 1) (hc : ∀ l : Fin T.N, ∀ α ∈ T.iface l, u α = c l) (hp : ∀ l : Fin T.N, c l * star (c l) = 1) :
    GaugeTrans T (phaseHam T.ham u) (fun α β => if α = β then u α else 0) c := by
  refine ⟨rfl, rfl, ?_, ?_, ?_, ?_, hp⟩
  · intro α hα β hβ
    rw [Finset.sum_eq_single α (fun γ _ hne => by simp only [if_neg hne, star_zero, zero_mul]) fun h => absurd (Finset.mem_range.mpr hα) h]
    simp only [if_pos]
    by_cases h : α = β
    · rw [if_pos h, if_pos h, mul_comm]
      exact hu α hα
    · rw [if_neg h, if_neg h, mul_zero]
  · intro α hα β hβ
    rw [Finset.sum_eq_single α (fun γ _ hne => by simp only [if_neg (Ne.symm hne), zero_mul]) fun h => absurd (Finset.mem_range.mpr hα) h]
    simp only [if_pos]
    by_cases h : α = β
    · subst h
      rw [if_pos rfl, if_pos rfl]
      exact hu α hα
    · rw [if_neg (Ne.symm h), if_neg h, star_zero, mul_zero]
  · intro α hα β hβ
    rw [Finset.sum_eq_single α (fun γ _ hne => Finset.sum_eq_zero fun δ _ => by simp only [if_neg (Ne.symm hne), zero_mul]) fun h => absurd (Finset.mem_range.mpr hα) h,
      Finset.sum_eq_single β (fun δ _ hne => by simp only [if_neg (Ne.symm hne), star_zero, mul_zero]) fun h => absurd (Finset.mem_range.mpr hβ) h]
    simp only [if_pos]
    rfl
  · intro l α hα β hβ
    by_cases h : β = α
    · simp only [if_pos h, h, hc l α hα]
    · simp only [if_neg h]

/-- C197 for what `smatrix` returns for the two systems, with any choice of leads: the transmissions are the same. -/
theorem C197_returned {e : ModesNum} (hT : T.Ok) (hG : GaugeTrans T ham v c) (ho : LeadsOk e T E) {M : (x : Fin T.N) → LeadModes (T.lead x).n (T.lead x).m} (hM : Computed e T E M)
    (hn : NoBoundState T E) (hif : ∀ x, (T.lead x).interface ≠ []) (hhop : ∀ x, (T.lead x).hop ≠ 0) (Sig Sig') {oL iL oL' iL' : Option (List ℕ)} {check check' : Bool} {ls ls' : LinearSys ℂ}
    {kv kv' o o' i i' : List ℕ} (h : smatrixSetup (T.toSys M Sig) (E : ℂ) oL iL check = .ok (ls, kv, o, i))
    (h' : smatrixSetup ((T.withGauge ham).toSys M Sig') (E : ℂ) oL' iL' check' = .ok (ls', kv', o', i')) {X X' : ℕ → ℕ → ℂ} (hX : Solves ls X) (hX' : Solves ls' X') {s s' : SMat}
    (hdata : ∀ p c r, kv[p]? = some r → s.data p c = X r c) (hdata' : ∀ p c r, kv'[p]? = some r → s'.data p c = X' r c)
    (hN : s.nLeads = T.N) (hso : s.outLeads = o) (hsi : s.inLeads = i) (hsz : ∀ x : Fin T.N, s.sizes x = (M x).p) (hsz0 : ∀ x, T.N ≤ x → s.sizes x = 0)
    (hN' : s'.nLeads = T.N) (hso' : s'.outLeads = o') (hsi' : s'.inLeads = i') (hsz' : s'.sizes = s.sizes)
    {x y : ℕ} (hx : x < T.N) (hy : y < T.N) (hio : x ∈ o ∨ y ∈ i) (hio' : x ∈ o' ∨ y ∈ i') {t t' : ℝ} (ht : Solver.transmission s x y = .ok t) (ht' : Solver.transmission s' x y = .ok t') : t' = t := by
  obtain ⟨_, _, _, _, _, sg, _, hB, S, hS⟩ := C116_succeeds hT ho hM hn hif hhop Sig (o := [x]) (i := [y]) (by simp) (by simp) (by simp) (by simp) (by simp [hx, hy]) check
  have hS' : IsSmatrix E ((LeadBasis.mk M sg).withGauge ham) (gaugeS c S) := (C197_smatrix hT hG).mp hS
  have e0 : s.sizes = (LeadBasis.mk M sg).num := by
    funext j
    by_cases hj : j < T.N
    · rw [LeadBasis.num, dif_pos hj]
      exact hsz ⟨j, hj⟩
    · rw [LeadBasis.num, dif_neg hj]
      exact hsz0 j (not_lt.mp hj)
  have e1 := smatrix_part hT hB Sig h (.inl hhop) hX hS hdata hN hso hsi e0
  have hOk := gauge_ok hT hG
  have hB' : BasisOk E ((LeadBasis.mk M sg).withGauge ham) := hB.withGauge
  have e2 : PartOf s' (gaugeS c S) := smatrix_part (T := T.withGauge ham) (sg := sg) hOk hB' Sig' h' (.inl hhop) hX' hS' hdata' hN' hso' hsi' (hsz'.trans e0)
  have e3 := C116_transmission hT hB hS e1 hN e0 hx hy (by rw [hso, hsi]; exact hio) ht
  have e4 := C116_transmission (T := T.withGauge ham) hOk hB' hS' e2 hN' (hsz'.trans e0) hx hy (by rw [hso', hsi']; exact hio') ht'
  rw [e3, e4]
  exact C197_transmission hT hG hB hS hS' ⟨x, hx⟩ ⟨y, hy⟩

/-! ### Example -/

/-- C197: in the example of C191 (two sites, one at each lead), the site at lead 0 gets the phase `i`: the hopping between the sites changes its sign, and the scattering matrix gets phases. -/
theorem C197_example : ∃ (B : LeadBasis (exOpen.addCell (0 : Fin 2) [2] 1)) (S : FullS), (exOpen.addCell (0 : Fin 2) [2] 1).Ok ∧ BasisOk 0 B ∧ NoBoundState (exOpen.addCell (0 : Fin 2) [2] 1) 0 ∧ IsSmatrix 0 B S ∧
    GaugeTrans (exOpen.addCell (0 : Fin 2) [2] 1) (phaseHam (exOpen.addCell (0 : Fin 2) [2] 1).ham fun α => if α < 2 then 1 else I) (fun α β => if α = β then (if α < 2 then 1 else I) else 0) (fun l => if l = 0 then I else 1) ∧
    (exOpen.addCell (0 : Fin 2) [2] 1).ham.val 2 0 = I ∧ (phaseHam (exOpen.addCell (0 : Fin 2) [2] 1).ham fun α => if α < 2 then 1 else I).val 2 0 = -1 ∧
    IsSmatrix 0 (B.withGauge (phaseHam (exOpen.addCell (0 : Fin 2) [2] 1).ham fun α => if α < 2 then 1 else I)) (gaugeS (fun l => if l = 0 then I else 1) S) := by
  obtain ⟨hc, hT, B, hB, hn, _, S', _, hS', hv, hI⟩ := C191_example
  have hOk := addCell_ok hT hc
  have hII : I * star I = 1 := by
    rw [show star I = (starRingEnd ℂ) I from rfl, conj_I, mul_neg, I_mul_I, neg_neg]
  have hG : GaugeTrans (exOpen.addCell (0 : Fin 2) [2] 1) (phaseHam (exOpen.addCell (0 : Fin 2) [2] 1).ham fun α => if α < 2 then 1 else I) (fun α β => if α = β then (if α < 2 then 1 else I) else 0)
      (fun l => if l = 0 then I else 1) := by
    refine C197_gauge hOk ?_ ?_ ?_
    · intro α _
      by_cases h : α < 2
      · simp only [if_pos h, one_mul, star_one]
      · simp only [if_neg h]
        exact hII
    · intro l α hα
      change Fin 2 at l
      fin_cases l
      · have h1 : α ∈ [2, 3] := hα
        have h2 : ¬ α < 2 := by
          simp at h1
          omega
        simp only [if_neg h2]
        rfl
      · have h1 : α ∈ [0, 1] := hα
        have h2 : α < 2 := by
          simp at h1
          omega
        simp only [if_pos h2]
        rfl
    · intro l
      by_cases h : (l : ℕ) = 0
      · simp only [if_pos h]
        exact hII
      · simp only [if_neg h, one_mul, star_one]
  refine ⟨B.addCell (0 : Fin 2) [2] 1, S', hOk, hB.addCell, hn, hS', hG, (hv 2 0).trans hI, ?_, (C197_smatrix hOk hG).mp hS'⟩
  change (if (2 : ℕ) < 2 then 1 else I) * exOpen.cellHam (0 : Fin 2) 2 0 * star (if (0 : ℕ) < 2 then 1 else I) = -1
  rw [hI, if_neg (by omega), if_pos (by omega), star_one, mul_one, I_mul_I]

end Kwant.Scatt
