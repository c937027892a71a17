import Verif.Scatt.FisherLeeEx
import Verif.Solver.Wave

/-!
C118: `wave_function` and `ldos`, end to end.
-/

set_option linter.unusedSectionVars false

namespace Kwant.Scatt
open Finset Complex Filter
open Matrix hiding mulVec
open Kwant.Leads hiding Modes
open Kwant.Solver hiding transmission LErr mulVec

variable {T : Open} {E : ℝ}

/-! ### Waves with sources -/

/-- A wave with the source `σ`: `(E - H) ψ = σ`. -/
structure SourceWave (T : Open) (E : ℝ) (σ ψ : ℕ → ℂ) (Ψ : (l : Fin T.N) → ℕ → Fin (T.lead l).n → ℂ) : Prop where
  region : ∀ α < T.ham.rows, E * ψ α - (∑ γ ∈ range T.ham.rows, T.ham.val α γ * ψ γ) - (∑ l, T.fromLead l ((T.lead l).hopᴴ *ᵥ Ψ l 0) α) = σ α
  lead : ∀ l, LeadSolution ((T.lead l).at E) (T.lead l).hop (T.amp ψ l) (Ψ l)

/-- The current that leaves the scattering region comes from the sources. -/
theorem source_flux (hT : T.Ok) {σ σ' ψ ψ' : ℕ → ℂ} {Ψ Ψ' : (l : Fin T.N) → ℕ → Fin (T.lead l).n → ℂ} (hw : SourceWave T E σ ψ Ψ) (hw' : SourceWave T E σ' ψ' Ψ') :
    ∑ l, I * (star (T.amp ψ l) ⬝ᵥ ((T.lead l).hopᴴ *ᵥ Ψ' l 0) - star (Ψ l 0) ⬝ᵥ ((T.lead l).hop *ᵥ T.amp ψ' l)) =
    I * ((∑ α ∈ range T.ham.rows, star (σ α) * ψ' α) - ∑ α ∈ range T.ham.rows, star (ψ α) * σ' α) := by
  have key : ∀ {σ' ψ ψ' : ℕ → ℂ} {Ψ' : (l : Fin T.N) → ℕ → Fin (T.lead l).n → ℂ}, SourceWave T E σ' ψ' Ψ' →
      ∑ α ∈ range T.ham.rows, star (ψ α) * ((∑ β ∈ range T.ham.rows, T.ham.val α β * ψ' β) - E * ψ' α) + ∑ l, star (T.amp ψ l) ⬝ᵥ ((T.lead l).hopᴴ *ᵥ Ψ' l 0) =
        -∑ α ∈ range T.ham.rows, star (ψ α) * σ' α := by
    intro σ' ψ ψ' Ψ' hw'
    have h1 : ∀ l, star (T.amp ψ l) ⬝ᵥ ((T.lead l).hopᴴ *ᵥ Ψ' l 0) = ∑ α ∈ range T.ham.rows, star (ψ α) * T.fromLead l ((T.lead l).hopᴴ *ᵥ Ψ' l 0) α := by
      intro l
      rw [sum_fromLead hT (fun α => star (ψ α))]
      rfl
    simp only [h1]
    rw [Finset.sum_comm, ← Finset.sum_add_distrib, ← Finset.sum_neg_distrib]
    refine Finset.sum_congr rfl fun α hα => ?_
    rw [← hw'.region α (Finset.mem_range.mp hα), ← Finset.mul_sum]
    ring
  have h1 := key (ψ := ψ) hw'
  have h2 := congrArg star (key (ψ := ψ') hw)
  rw [star_add, star_neg] at h2
  have herm : star (∑ α ∈ range T.ham.rows, star (ψ' α) * ((∑ β ∈ range T.ham.rows, T.ham.val α β * ψ β) - E * ψ α)) =
      ∑ α ∈ range T.ham.rows, star (ψ α) * ((∑ β ∈ range T.ham.rows, T.ham.val α β * ψ' β) - E * ψ' α) := by
    simp only [star_sum, star_mul, star_sub, star_star, mul_sub, sub_mul, Finset.mul_sum, Finset.sum_mul, Finset.sum_sub_distrib]
    congr 1
    · rw [Finset.sum_comm]
      refine Finset.sum_congr rfl fun α hα => Finset.sum_congr rfl fun β hβ => ?_
      rw [hT.herm β (Finset.mem_range.mp hβ) α (Finset.mem_range.mp hα)]
      ring
    · refine Finset.sum_congr rfl fun α _ => ?_
      have : star (E : ℂ) = E := conj_ofReal E
      rw [this]
      ring
  rw [herm, star_sum] at h2
  have h3 : ∀ l, star (star (T.amp ψ' l) ⬝ᵥ ((T.lead l).hopᴴ *ᵥ Ψ l 0)) = star (Ψ l 0) ⬝ᵥ ((T.lead l).hop *ᵥ T.amp ψ' l) := by
    intro l
    rw [star_form', conjTranspose_conjTranspose]
  have h4 : star (∑ α ∈ range T.ham.rows, star (ψ' α) * σ α) = ∑ α ∈ range T.ham.rows, star (σ α) * ψ' α := by
    rw [star_sum]
    refine Finset.sum_congr rfl fun α _ => ?_
    rw [star_mul, star_star]
  simp only [h3] at h2
  rw [h4] at h2
  rw [← Finset.mul_sum, Finset.sum_sub_distrib]
  linear_combination I * h1 - I * h2

/-- The amplitudes of the modes at infinity and the sources. -/
theorem source_conservation (hT : T.Ok) {B : LeadBasis T} (hB : BasisOk E B) {σ σ' ψ ψ' : ℕ → ℂ} {Ψ Ψ' : (l : Fin T.N) → ℕ → Fin (T.lead l).n → ℂ} (hw : SourceWave T E σ ψ Ψ)
    (hw' : SourceWave T E σ' ψ' Ψ') {a a' : (l : Fin T.N) → Fin (B.M l).p ⊕ Fin (B.M l).p → ℂ} (hA : ∀ l, Asymp (B.M l) (B.sg l) (a l) (Ψ l)) (hA' : ∀ l, Asymp (B.M l) (B.sg l) (a' l) (Ψ' l)) :
    (∑ l, ∑ i, star (a l (.inr i)) * a' l (.inr i)) - ∑ l, ∑ i, star (a l (.inl i)) * a' l (.inl i) =
    I * ((∑ α ∈ range T.ham.rows, star (σ α) * ψ' α) - ∑ α ∈ range T.ham.rows, star (ψ α) * σ' α) := by
  have h1 := source_flux hT hw hw'
  rw [Finset.sum_congr rfl fun l _ => lead_flux (hB.herm l) (hB.spec l) (hB.incoming l) (hB.outgoing l) (hw.lead l) (hw'.lead l) (hA l) (hA' l), Finset.sum_sub_distrib] at h1
  exact h1

theorem InfWave.source {ψ : ℕ → ℂ} {Ψ : (l : Fin T.N) → ℕ → Fin (T.lead l).n → ℂ} (h : InfWave T E ψ Ψ) : SourceWave T E (fun _ => 0) ψ Ψ :=
  ⟨fun α hα => by linear_combination -(h.region α hα), h.lead⟩

theorem Response.source {β : ℕ} {ψ : ℕ → ℂ} {Ψ : (l : Fin T.N) → ℕ → Fin (T.lead l).n → ℂ} (h : Response T E β ψ Ψ) : SourceWave T E (fun α => if α = β then 1 else 0) ψ Ψ :=
  ⟨h.region, h.lead⟩

/-- The imaginary part of the Green's function is the sum over all scattering states. -/
theorem spectral (hT : T.Ok) {B : LeadBasis T} (hB : BasisOk E B) {S : FullS} (hS : IsSmatrix E B S) {β : ℕ} (hβ : β < T.ham.rows) {g : ℕ → ℂ} {Γ : (l : Fin T.N) → ℕ → Fin (T.lead l).n → ℂ}
    (hg : Response T E β g Γ) {w : (i : Fin T.N) → Fin (B.M i).p → ℕ → ℂ} (hw : ∀ (i : Fin T.N) (b : Fin (B.M i).p), ∃ s Ψ, ScattWave E B i b s (w i b) Ψ) :
    ∑ i, ∑ b, Complex.normSq (w i b β) = -2 * (g β).im := by
  choose s Ψ hw using hw
  choose c hc using fun l => outgoing_asymp (hB.data l) (hg.outgoing l)
  have h1 := source_conservation hT hB hg.source hg.source hc hc
  have h2 := fun i b => source_conservation hT hB hg.source (hw i b).1.source hc (hw i b).2
  simp only [Sum.elim_inl, Sum.elim_inr, Pi.zero_apply, star_zero, zero_mul, Finset.sum_const_zero, sub_zero, mul_zero] at h1 h2
  have e1 : ∀ f : ℕ → ℂ, ∑ α ∈ range T.ham.rows, star (if α = β then (1 : ℂ) else 0) * f α = f β := by
    intro f
    rw [Finset.sum_eq_single_of_mem β (Finset.mem_range.mpr hβ)]
    · rw [if_pos rfl, star_one, one_mul]
    · intro α _ hα
      rw [if_neg hα, star_zero, zero_mul]
  have e2 : ∀ f : ℕ → ℂ, ∑ α ∈ range T.ham.rows, f α * (if α = β then (1 : ℂ) else 0) = f β := by
    intro f
    rw [Finset.sum_eq_single_of_mem β (Finset.mem_range.mpr hβ)]
    · rw [if_pos rfl, mul_one]
    · intro α _ hα
      rw [if_neg hα, mul_zero]
  rw [e1, e2 (fun α => star (g α))] at h1
  simp only [e1] at h2
  -- the amplitudes are those of the scattering matrix
  have h3 : ∀ (i : Fin T.N) (b : Fin (B.M i).p) (l : Fin T.N) (a : Fin (B.M l).p), s i b l a = S l a i b := by
    intro i b l a
    obtain ⟨ψ', Ψ', hw'⟩ := hS i b b.2
    exact scatt_unique hT hB (hw i b) hw' l a a.2
  simp only [h3] at h2
  let Ch := (l : Fin T.N) × Fin (B.M l).p
  let A : Matrix Ch Ch ℂ := of fun x y => S x.1 x.2 y.1 y.2
  have hnum : ∀ l : Fin T.N, B.num l = (B.M l).p := fun l => dif_pos l.2
  have hU : A * Aᴴ = 1 := by
    ext x y
    have h4 := (C116_unitary hT hB hS).1 x.1 x.1.2 x.2 (by rw [hnum]; exact x.2.2) y.1 y.1.2 y.2 (by rw [hnum]; exact y.2.2)
    rw [mul_apply, Fintype.sum_sigma, one_apply]
    have h5 : ((x.1 : ℕ) = y.1 ∧ (x.2 : ℕ) = y.2) ↔ x = y := by
      obtain ⟨x, a⟩ := x
      obtain ⟨y, b⟩ := y
      constructor
      · rintro ⟨h6, h7⟩
        have h6' : x = y := Fin.ext h6
        subst h6'
        have : a = b := Fin.ext h7
        rw [this]
      · intro h6
        cases h6
        exact ⟨rfl, rfl⟩
    rw [if_congr h5 rfl rfl] at h4
    rw [← h4, Finset.sum_range]
    refine Finset.sum_congr rfl fun l _ => ?_
    rw [hnum, Finset.sum_range]
    rfl
  let v : Ch → ℂ := fun x => star (c x.1 x.2)
  have h6 : ∀ x : Ch, (v ᵥ* A) x = I * w x.1 x.2 β := by
    intro x
    rw [← h2 x.1 x.2, Matrix.vecMul, dotProduct, Fintype.sum_sigma]
    rfl
  have h7 : (v ᵥ* A) ⬝ᵥ star (v ᵥ* A) = v ⬝ᵥ star v := by
    rw [star_vecMul, dotProduct_mulVec, vecMul_vecMul, hU, vecMul_one]
  have h8 : ((∑ i, ∑ b, Complex.normSq (w i b β) : ℝ) : ℂ) = (v ᵥ* A) ⬝ᵥ star (v ᵥ* A) := by
    rw [dotProduct, Fintype.sum_sigma, ofReal_sum]
    refine Finset.sum_congr rfl fun i _ => ?_
    rw [ofReal_sum]
    refine Finset.sum_congr rfl fun b _ => ?_
    rw [Pi.star_apply, h6, star_def, mul_conj, normSq_mul, normSq_I, one_mul]
  have h9 : v ⬝ᵥ star v = ∑ l, ∑ i, star (c l i) * c l i := by
    rw [dotProduct, Fintype.sum_sigma]
    refine Finset.sum_congr rfl fun l _ => Finset.sum_congr rfl fun i _ => ?_
    rw [Pi.star_apply, star_star]
  rw [h7, h9, h1] at h8
  have h10 := congrArg Complex.re h8
  rw [ofReal_re] at h10
  rw [h10]
  simp
  ring

/-! ### `wave_function` -/

/-- C118: `wave_function(...)(lead)` contains the scattering states of the infinite system. -/
theorem C118_wave_function (hT : T.Ok) {B : LeadBasis T} (hB : BasisOk E B) {Sig} {check : Bool} {ls : LinearSys ℂ} (h : waveInit (T.toSys B.M Sig) (E : ℂ) check = .ok ls)
    {solve : System.Mat ℂ → System.Mat ℂ → ℕ → ℕ → ℂ} (hex : Exact ls solve) (i : Fin T.N) :
    ∃ W, waveCall (T.toSys B.M Sig) ls solve i = .ok W ∧ W.rows = (B.M i).p ∧ W.cols = T.ham.rows ∧
      ∀ b < (B.M i).p, ∃ s Ψ, ScattWave E B i b s (fun α => W.val b α) Ψ := by
  obtain ⟨W, h1, h2, h3, h4⟩ := (C97_wave_function (sysOk hT hB Sig) h hex i).1 _ (toSys_get B.M Sig i) rfl
  rw [lead_nprop hB Sig i] at h2
  refine ⟨W, h1, h2, h3, fun b hb => ?_⟩
  obtain ⟨s, hs⟩ := h4 b (by rw [h2]; exact hb)
  obtain ⟨Ψ, hw⟩ := wave_of_scattering hT hB hb hs
  exact ⟨s, Ψ, hw⟩

/-- C118: without bound states the scattering states are unique. -/
theorem C118_unique (hT : T.Ok) {B : LeadBasis T} (hB : BasisOk E B) (hn : NoBoundState T E) {i : Fin T.N} {b : ℕ} {s s' : ℕ → ℕ → ℂ} {ψ ψ' : ℕ → ℂ}
    {Ψ Ψ' : (l : Fin T.N) → ℕ → Fin (T.lead l).n → ℂ} (h : ScattWave E B i b s ψ Ψ) (h' : ScattWave E B i b s' ψ' Ψ') : (∀ α < T.ham.rows, ψ α = ψ' α) ∧ Ψ = Ψ' := by
  have hw := h.1.sub h'.1
  have hA := fun l => (h.2 l).sub (h'.2 l)
  have h0 := no_outgoing hT hB hw hA (fun l i => by simp)
  have hz := hn _ _ hw (fun l => by
    have := hA l
    unfold Asymp at this
    simp only [h0, zero_mul, zero_smul, Finset.sum_const_zero, sub_zero] at this
    exact this)
  exact ⟨fun α hα => sub_eq_zero.mp (hz.1 α hα), funext fun l => funext fun j => sub_eq_zero.mp (hz.2 l j)⟩

/-! ### `ldos` -/

/-- C118: what `ldos` returns for an orbital is `-Im G / π`, where `G` is the amplitude at the orbital of the response of the infinite system to a source there. -/
theorem C118_ldos (hT : T.Ok) {B : LeadBasis T} (hB : BasisOk E B) {Sig} {ls : LinearSys ℂ}
    (h : makeLinearSys (T.toSys B.M Sig) (List.range T.N) (E : ℂ) true false = .ok ls) {X : ℕ → ℕ → ℂ} (hX : Solves ls X) {nrhs : ℕ} (hr : 0 < nrhs)
    {β : ℕ} (hβ : β < T.ham.rows) {g : ℕ → ℂ} {Γ : (l : Fin T.N) → ℕ → Fin (T.lead l).n → ℂ} (hg : Response T E β g Γ) :
    ldosOf ls X nrhs β = -(g β).im / Real.pi := by
  have hlen := toSys_length B.M Sig
  obtain ⟨ψ, h1, h2⟩ := C97_ldos (sysOk hT hB Sig) (by rw [hlen]; exact h) hX hr
  have h3 : ∀ (i : Fin T.N) (b : Fin (B.M i).p), ∃ s Ψ, ScattWave E B i b s (ψ i b) Ψ := by
    intro i b
    obtain ⟨s, hs⟩ := h1 i _ (toSys_get B.M Sig i) b (by rw [lead_nprop hB Sig]; exact b.2)
    obtain ⟨Ψ, hw⟩ := wave_of_scattering hT hB b.2 hs
    exact ⟨s, Ψ, hw⟩
  have hS : ∃ S, IsSmatrix E B S := by
    choose s Ψ hw using h3
    refine ⟨fun l a i b => if hi : i < T.N then if hb : b < (B.M ⟨i, hi⟩).p then s ⟨i, hi⟩ ⟨b, hb⟩ l a else 0 else 0, fun i b hb => ⟨ψ i b, Ψ i ⟨b, hb⟩, ?_⟩⟩
    have e : (fun l a => if hi : (i : ℕ) < T.N then if hb : b < (B.M ⟨i, hi⟩).p then s ⟨i, hi⟩ ⟨b, hb⟩ l a else 0 else 0) = s i ⟨b, hb⟩ := by
      funext l a
      rw [dif_pos i.2, dif_pos hb]
    rw [e]
    exact hw i ⟨b, hb⟩
  obtain ⟨S, hS⟩ := hS
  have h4 := spectral hT hB hS hβ hg (w := fun i b => ψ i b) h3
  have h5 : ∑ i ∈ range (T.toSys B.M Sig).leads.length, ∑ b ∈ range ((((T.toSys B.M Sig).leads[i]?).map Solver.Lead.nprop).getD 0), Complex.normSq (ψ i b β) =
      ∑ i : Fin T.N, ∑ b : Fin (B.M i).p, Complex.normSq (ψ i b β) := by
    rw [hlen, Finset.sum_range]
    refine Finset.sum_congr rfl fun i _ => ?_
    rw [toSys_get, Option.map_some, Option.getD_some, lead_nprop hB Sig, Finset.sum_range]
  rw [h2, h5, h4]
  have := Real.pi_pos
  field_simp

/-- C118: without bound states there is a response to a source at each orbital. -/
theorem C118_response (hT : T.Ok) {B : LeadBasis T} (hB : BasisOk E B) {Sig} (hS : SelfenergiesOk T E Sig) (hn : NoBoundState T E) (β : ℕ) : ∃ g Γ, Response T E β g Γ := by
  let m : System.Mat ℂ := ⟨T.ham.rows, T.ham.rows, invGreen (T.toSys B.M Sig) (E : ℂ)⟩
  obtain ⟨x, hx⟩ := solve_square (m := m) rfl (fun x hx => green_kernel (x := x) hT hB hS hn hx) (fun α => if α = β then 1 else 0)
  choose Ψ h1 h2 _ h4 using fun l => hS l (T.amp x l)
  refine ⟨x, Ψ, ⟨fun α hα => ?_, h1, h2⟩⟩
  have h6 := hx α hα
  have h7 : ∀ γ, invGreen (T.toSys B.M Sig) (E : ℂ) α γ * x γ =
      (if α = γ then (E : ℂ) * x γ else 0) - T.ham.val α γ * x γ - ∑ l : Fin T.N, sigmaAt T.norb (solverLead B.M Sig l) α γ * x γ := by
    intro γ
    unfold invGreen
    rw [toSys_sum B.M Sig (fun lead _ => sigmaAt (T.toSys B.M Sig).norb lead α γ), sub_mul, sub_mul, ite_mul, zero_mul, Finset.sum_mul]
    rfl
  change ∑ γ ∈ range T.ham.rows, invGreen (T.toSys B.M Sig) (E : ℂ) α γ * x γ = _ at h6
  simp only [h7, Finset.sum_sub_distrib] at h6
  rw [Finset.sum_ite_eq, if_pos (Finset.mem_range.mpr hα), Finset.sum_comm, Finset.sum_congr rfl fun l _ => sigma_apply hT B.M Sig l x α] at h6
  simp only [h4] at h6
  exact h6

/-- The example of C116 meets the hypotheses of the theorems of C118. -/
theorem C118_example : ∃ B : LeadBasis exOpen, BasisOk 0 B ∧ (∀ β, ∃ g Γ, Response exOpen 0 β g Γ) ∧ ∀ Sig, ∃ ls X solve, waveInit (exOpen.toSys B.M Sig) ((0 : ℝ) : ℂ) true = .ok ls ∧ Exact ls solve ∧
    makeLinearSys (exOpen.toSys B.M Sig) (List.range exOpen.N) ((0 : ℝ) : ℂ) true false = .ok ls ∧ Solves ls X := by
  obtain ⟨_, _, B, hB, Sig0, hS0, _⟩ := C117_example
  refine ⟨B, hB, C118_response exOpen_ok hB hS0 ex_noBound, fun Sig => ?_⟩
  have hN : exOpen.N ≠ 0 := by change 2 ≠ 0; omega
  obtain ⟨ls, hls⟩ := makeLinearSys_ok exOpen_ok hB (fun l => by change [0] ≠ []; simp) hN Sig (List.range exOpen.N) true
  obtain ⟨⟨X, hX⟩, _⟩ := C116_regular exOpen_ok hB ex_noBound hls
  have hml : modesLeads (exOpen.toSys B.M Sig) = List.range exOpen.N := rfl
  have hsq := (makeLinearSys_spec (sysOk exOpen_ok hB Sig) hls).2.2.1
  choose x hx using fun (M : System.Mat ℂ) (c : ℕ) => solve_square hsq (fun x => kernel exOpen_ok hB ex_noBound hls) (fun ρ => M.val ρ c)
  refine ⟨ls, X, fun _ M κ c => x M c κ, ?_, ?_, hls, hX⟩
  · unfold waveInit
    rw [hml]
    exact hls
  · intro M _ c _ ρ hρ
    exact hx M c ρ hρ

end Kwant.Scatt
