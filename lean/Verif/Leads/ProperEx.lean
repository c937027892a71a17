import Verif.Leads.ProperMain
import Verif.Leads.ModeNumEx
import Verif.Leads.SelfEnergyEx
import Mathlib.Analysis.SpecialFunctions.Trigonometric.Bounds

/-!
C109: an example of a lead that meets all hypotheses; the result does not depend on uninitialised memory if the eigenvalues are separated, but it does
otherwise.
-/

set_option linter.unusedSectionVars false

namespace Kwant.Leads
open Matrix Complex

variable {n r : ℕ}

/-! ### Input of `make_proper_modes` from Bloch functions -/

/-- Bloch functions that form a basis give an admissible input. -/
theorem propInput_of_bloch {h hop : Matrix (Fin n) (Fin n) ℂ} {L : Linsys n} {u : Matrix (Fin n) (Fin L.r) ℂ} (hf : Faithful h hop L u) {N : ℕ} {lam : Fin N → ℂ}
    {full : Matrix (Fin n) (Fin N) ℂ} (hu : ∀ i, ‖lam i‖ = 1) (hb : ∀ i, IsBloch h hop (lam i) (full.col i))
    (hi : ∀ (μ : ℂ) (c : Fin N → ℂ), (∀ i, lam i ≠ μ → c i = 0) → full *ᵥ c = 0 → c = 0)
    (hc : ∀ (μ : ℂ) ψ, ‖μ‖ = 1 → IsBloch h hop μ ψ → ∃ c : Fin N → ℂ, (∀ i, lam i ≠ μ → c i = 0) ∧ ψ = full *ᵥ c) :
    ∃ psi, PropInput L lam psi := by
  let psi : Matrix (Fin L.r ⊕ Fin L.r) (Fin N) ℂ := of fun x i => Sum.elim (L.vᴴ *ᵥ full.col i) ((lam i)⁻¹ • (uᴴ *ᵥ full.col i)) x
  have hl : ∀ i, Link h hop u L.v (lam i) (psi.col i) (full.col i) := fun i => ⟨rfl, hb i⟩
  -- linear combinations of modes with the same eigenvalue
  have hcomb : ∀ (μ : ℂ) (c : Fin N → ℂ), μ ≠ 0 → (∀ i, lam i ≠ μ → c i = 0) → Link h hop u L.v μ (psi *ᵥ c) (full *ᵥ c) := by
    intro μ c hμ hc0
    let full' : Matrix (Fin n) (Fin N) ℂ := of fun x i => if lam i = μ then full x i else 0
    let psi' : Matrix (Fin L.r ⊕ Fin L.r) (Fin N) ℂ := of fun x i => if lam i = μ then psi x i else 0
    have hl' : ∀ i, Link h hop u L.v μ (psi'.col i) (full'.col i) := by
      intro i
      by_cases hli : lam i = μ
      · have e1 : psi'.col i = psi.col i := by ext x; simp [psi', Matrix.col, hli]
        have e2 : full'.col i = full.col i := by ext x; simp [full', Matrix.col, hli]
        rw [e1, e2, ← hli]
        exact hl i
      · have e1 : psi'.col i = 0 := by ext x; simp [psi', Matrix.col, hli]
        have e2 : full'.col i = 0 := by ext x; simp [full', Matrix.col, hli]
        rw [e1, e2]
        refine ⟨?_, (isBloch_iff h hop hμ _).mpr (by simp)⟩
        rw [mulVec_zero, mulVec_zero, smul_zero]
        ext x
        rcases x with x | x <;> rfl
    have := Link.mul hμ hl' (of fun a (_ : Fin 1) => c a) 0
    have e1 : (psi' * of fun a (_ : Fin 1) => c a).col 0 = psi *ᵥ c := by
      ext x
      simp only [Matrix.col, transpose_apply, Matrix.mul_apply, mulVec, dotProduct, of_apply, psi']
      refine Finset.sum_congr rfl fun i _ => ?_
      split_ifs with h0
      · rfl
      · rw [hc0 i h0]; ring
    have e2 : (full' * of fun a (_ : Fin 1) => c a).col 0 = full *ᵥ c := by
      ext x
      simp only [Matrix.col, transpose_apply, Matrix.mul_apply, mulVec, dotProduct, of_apply, full']
      refine Finset.sum_congr rfl fun i _ => ?_
      split_ifs with h0
      · rfl
      · rw [hc0 i h0]; ring
    rwa [e1, e2] at this
  refine ⟨psi, hu, fun i => ((link_iff hf (unit_ne (hu i)) _ _).mp (hl i)).1, ?_, ?_⟩
  · intro μ c hc0 h0
    by_cases hμ : μ = 0
    · ext i
      exact hc0 i fun h1 => unit_ne (hu i) (h1.trans hμ)
    · have := hcomb μ c hμ hc0
      rw [h0] at this
      exact hi μ c hc0 (Link.zero hf hμ this)
  · intro μ x hμ hx
    have hμ0 := unit_ne hμ
    have hlx := (link_iff hf hμ0 x (L.extract1 μ x)).mpr ⟨hx, rfl⟩
    obtain ⟨c, h1, h2⟩ := hc μ _ hμ hlx.2
    refine ⟨c, h1, ?_⟩
    rw [hlx.1, h2, (hcomb μ c hμ0 h1).1]

/-! ### A chain of two decoupled orbitals -/

theorem ex2Bloch {μ : ℂ} (hμ : μ ≠ 0) (ψ : Fin 2 → ℂ) : IsBloch ex2H 1 μ ψ ↔ (μ + μ⁻¹) * ψ 0 = 0 ∧ (5 / 2 + μ + μ⁻¹) * ψ 1 = 0 := by
  rw [isBloch_iff _ _ hμ, conjTranspose_one, one_mulVec]
  constructor
  · intro h0
    have h1 := congrFun h0 0
    have h2 := congrFun h0 1
    simp [ex2H, mulVec, dotProduct, diagonal_apply, Fin.sum_univ_two] at h1 h2
    exact ⟨by linear_combination h1, by linear_combination h2⟩
  · rintro ⟨h1, h2⟩
    ext i
    fin_cases i
    · simp [ex2H, mulVec, dotProduct, diagonal_apply, Fin.sum_univ_two]
      linear_combination h1
    · simp [ex2H, mulVec, dotProduct, diagonal_apply, Fin.sum_univ_two]
      linear_combination h2

noncomputable def ex2lam : Fin 2 → ℂ := ![I, -I]

theorem unit_quad {μ : ℂ} (hμ : ‖μ‖ = 1) : (5 / 2 + μ + μ⁻¹) ≠ 0 := by
  intro h0
  have hc : μ⁻¹ = (starRingEnd ℂ) μ := by
    have := congrArg (starRingEnd ℂ) (conj_inv_unit hμ)
    rwa [Complex.conj_conj] at this
  have h1 := congrArg Complex.re h0
  rw [hc] at h1
  have h2 := abs_re_le_norm μ
  rw [hμ, abs_le] at h2
  have h3 : (5 / 2 : ℂ).re = 5 / 2 := by norm_num
  simp only [add_re, conj_re, zero_re, h3] at h1
  linarith [h2.1]

theorem ex2Input : ∃ psi, PropInput (linsysReg (exNum ex2Svd) ex2H 1) ex2lam psi := by
  obtain ⟨u, hf⟩ := setup_faithful _ (exNum_ok ex2Svd_ok) ex2Setup ex2Cut (by simp)
  refine propInput_of_bloch hf (full := of fun x _ => if x = 0 then 1 else 0) ?_ ?_ ?_ ?_
  · intro i
    fin_cases i <;> simp [ex2lam]
  · intro i
    fin_cases i
    · refine (ex2Bloch (by simp [ex2lam]) _).mpr ⟨?_, ?_⟩ <;> simp [ex2lam, Matrix.col]
    · refine (ex2Bloch (by simp [ex2lam]) _).mpr ⟨?_, ?_⟩ <;> simp [ex2lam, Matrix.col]
  · intro μ c hc h0
    have h1 := congrFun h0 0
    simp [mulVec, dotProduct, Fin.sum_univ_two] at h1
    have hne : ¬(ex2lam 0 = μ ∧ ex2lam 1 = μ) := by
      rintro ⟨h2, h3⟩
      have : (I : ℂ) = -I := h2.trans h3.symm
      have := congrArg Complex.im this
      norm_num at this
    by_cases h2 : ex2lam 0 = μ
    · have h4 := hc 1 fun h3 => hne ⟨h2, h3⟩
      rw [h4, add_zero] at h1
      ext i
      fin_cases i
      · exact h1
      · exact h4
    · have h4 := hc 0 h2
      rw [h4, zero_add] at h1
      ext i
      fin_cases i
      · exact h4
      · exact h1
  · intro μ ψ hμ hψ
    have hμ0 := unit_ne hμ
    obtain ⟨h1, h2⟩ := (ex2Bloch hμ0 ψ).mp hψ
    have h3 := (mul_eq_zero.mp h2).resolve_left (unit_quad hμ)
    by_cases h0 : ψ 0 = 0
    · refine ⟨0, fun _ _ => rfl, ?_⟩
      rw [mulVec_zero]
      ext i
      fin_cases i
      · exact h0
      · exact h3
    · have h4 := (mul_eq_zero.mp h1).resolve_right h0
      have h5 : (μ - I) * (μ + I) = 0 := by
        have : μ * μ + 1 = 0 := by
          have := congrArg (μ * ·) h4
          simpa [mul_add, hμ0] using this
        linear_combination this - I_mul_I
      have hI : (I : ℂ) ≠ -I := by
        intro this
        have := congrArg Complex.im this
        norm_num at this
      rcases mul_eq_zero.mp h5 with h6 | h6
      · have h7 : μ = I := sub_eq_zero.mp h6
        refine ⟨![ψ 0, 0], ?_, ?_⟩
        · intro i
          fin_cases i
          · intro h8
            exact absurd h7.symm h8
          · intro _; rfl
        · ext i
          fin_cases i <;> simp [mulVec, dotProduct, Fin.sum_univ_two, h3]
      · have h7 : μ = -I := eq_neg_of_add_eq_zero_left h6
        refine ⟨![0, ψ 0], ?_, ?_⟩
        · intro i
          fin_cases i
          · intro _; rfl
          · intro h8
            exact absurd h7.symm h8
        · ext i
          fin_cases i <;> simp [mulVec, dotProduct, Fin.sum_univ_two, h3]

theorem ex2Sep : Separated (exactNum 2 (1 / 10) (1 / 10)) ex2lam := by
  have h2 : ‖(2 : ℂ) * I‖ = 2 := by simp
  have h3 : ‖I - -I‖ = 2 := by rw [← h2]; congr 1; ring
  have h4 : ‖-I - I‖ = 2 := by rw [← norm_neg, ← h2]; congr 1; ring
  intro i j
  have : (exactNum 2 (1 / 10) (1 / 10)).eps = 1 / 10 := rfl
  rw [this]
  fin_cases i <;> fin_cases j
  · intro _; rfl
  · intro h0
    change ‖I - -I‖ ≤ _ at h0
    rw [h3] at h0
    norm_num at h0
  · intro h0
    change ‖-I - I‖ ≤ _ at h0
    rw [h4] at h0
    norm_num at h0
  · intro _; rfl

theorem dot_two (a b : Fin 2 → ℂ) : star a ⬝ᵥ b = (starRingEnd ℂ) (a 0) * b 0 + (starRingEnd ℂ) (a 1) * b 1 := by
  simp [dotProduct, Fin.sum_univ_two]

/-- C109: the hypotheses of `C109_modes` are met, and modes are returned. -/
theorem C109_example : ∃ psi, PropInput (linsysReg (exNum ex2Svd) ex2H 1) ex2lam psi ∧ ∀ junk, ∃ o,
    makeProperModes (exactNum 2 (1 / 10) (1 / 10)) ⟨none, none, none⟩ junk ex2lam psi (linsysReg (exNum ex2Svd) ex2H 1).extract = .ok o ∧
    ProperSpec ex2H 1 (linsysReg (exNum ex2Svd) ex2H 1) o := by
  obtain ⟨psi, hpsi⟩ := ex2Input
  refine ⟨psi, hpsi, fun junk => ?_⟩
  have he := exactNum_ok 2 (eps := 1 / 10) (velEps := 1 / 10) (by norm_num) (by norm_num)
  obtain ⟨full, vel, h1, h2, h3, _, h4⟩ := C109_error _ (exNum_ok ex2Svd_ok) ex2Setup ex2Cut (by simp) _ he hpsi ex2Sep junk
  -- the wave functions are concentrated on the first orbital
  have hb : ∀ i, full 1 i = 0 := by
    intro i
    have hu := hpsi.unit i
    obtain ⟨_, h6⟩ := (ex2Bloch (unit_ne hu) _).mp (h1 i)
    exact (mul_eq_zero.mp h6).resolve_left (unit_quad hu)
  have hn : ∀ i, (starRingEnd ℂ) (full 0 i) * full 0 i = 1 := by
    intro i
    have := h2 i i rfl
    rw [if_pos rfl, dot_two] at this
    have h5 : full.col i 1 = 0 := hb i
    rw [h5] at this
    simpa using this
  have hv : ∀ i, (vel i : ℂ) = -I * ex2lam i + (starRingEnd ℂ) (-I * ex2lam i) := by
    intro i
    have := h3 i i rfl
    rw [if_pos rfl, dot_two] at this
    have h5 : full.col i 1 = 0 := hb i
    rw [h5, map_zero, zero_mul, add_zero] at this
    rw [← this]
    have h6 : (velMu (1 : Matrix (Fin 2) (Fin 2) ℂ) (ex2lam i) *ᵥ full.col i) 0 = (-I * ex2lam i + (starRingEnd ℂ) (-I * ex2lam i)) * full 0 i := by
      simp only [velMu, mulVec, dotProduct, Fin.sum_univ_two, Matrix.add_apply, Matrix.smul_apply, conjTranspose_apply, one_apply_eq, smul_eq_mul, star_def, h5,
        mul_zero, add_zero, mul_one]
      rfl
    rw [h6]
    have h7 : full.col i 0 = full 0 i := rfl
    rw [h7]
    linear_combination (-I * ex2lam i + (starRingEnd ℂ) (-I * ex2lam i)) * hn i
  have v0 : vel 0 = 2 := by
    have := hv 0
    have h5 : ex2lam 0 = I := rfl
    rw [h5] at this
    have h6 : (vel 0 : ℂ) = ((2 : ℝ) : ℂ) := by
      rw [this]
      simp
      norm_num
    exact_mod_cast h6
  have v1 : vel 1 = -2 := by
    have := hv 1
    have h5 : ex2lam 1 = -I := rfl
    rw [h5] at this
    have h6 : (vel 1 : ℂ) = ((-2 : ℝ) : ℂ) := by
      rw [this]
      simp
      norm_num
    exact_mod_cast h6
  have hve : (exactNum 2 (1 / 10) (1 / 10)).velEps = 1 / 10 := rfl
  match hm : makeProperModes (exactNum 2 (1 / 10) (1 / 10)) ⟨none, none, none⟩ junk ex2lam psi (linsysReg (exNum ex2Svd) ex2H 1).extract with
  | .ok o => exact ⟨o, rfl, C109_modes _ (exNum_ok ex2Svd_ok) ex2Setup ex2Cut (by simp) _ he hpsi ex2Sep junk hm⟩
  | .error x =>
    exfalso
    obtain ⟨_, ⟨i, h5⟩ | h5⟩ := (h4 x).mp hm
    · rw [hve] at h5
      fin_cases i
      · simp only [Fin.zero_eta] at h5
        rw [v0] at h5; norm_num at h5
      · simp only [Fin.mk_one] at h5
        rw [v1] at h5; norm_num at h5
    · apply h5
      have : (Finset.univ.filter fun i : Fin 2 => vel i < 0) = {1} := by
        ext i
        fin_cases i <;> simp [v0, v1]
      rw [this]
      rfl

/-! ### Uninitialised memory -/

theorem runClusters_junk (e : ModeNum n) (sy : Symm n) {N : ℕ} : ∀ (cs : List (List (Fin N))) (psi : Matrix (Fin r ⊕ Fin r) (Fin N) ℂ) (full : Matrix (Fin n) (Fin N) ℂ)
    (lam : Fin N → ℂ) (trim : Fin N → ℕ) (v v' : Fin N → ℝ), (∀ i, i ∉ cs.flatten → v i = v' i) →
    runClusters e sy cs ⟨psi, full, lam, v, trim⟩ = runClusters e sy cs ⟨psi, full, lam, v', trim⟩
  | [], psi, full, lam, trim, v, v', h => by
    have : v = v' := funext fun i => h i (by simp)
    rw [this]
  | c :: cs, psi, full, lam, trim, v, v', h => by
    have hs : clusterStep e sy (Modes.take ⟨psi, full, lam, v, trim⟩ c.get) = clusterStep e sy (Modes.take ⟨psi, full, lam, v', trim⟩ c.get) := rfl
    rw [runClusters, runClusters, hs]
    cases clusterStep e sy (Modes.take ⟨psi, full, lam, v', trim⟩ c.get) with
    | error x => rfl
    | ok o =>
      refine runClusters_junk e sy cs _ _ _ _ _ _ fun i hi => ?_
      by_cases hc : ∃ a, c.get a = i
      · simp only [upd, dif_pos hc]
      · rw [upd_not _ _ fun a ha => hc ⟨a, ha⟩, upd_not _ _ fun a ha => hc ⟨a, ha⟩]
        refine h i fun hmem => ?_
        rw [List.flatten_cons, List.mem_append] at hmem
        rcases hmem with hmem | hmem
        · exact hc (List.get_of_mem hmem)
        · exact hi hmem

/-- C109: the result does not depend on the initial content of the array of velocities, whatever the symmetries, if eigenvalues closer than the tolerance are
equal. -/
theorem C109_initialised (e : ModeNum n) (he : 0 < e.eps) (sy : Symm n) {N : ℕ} (junk junk' : Fin N → ℝ) {lam : Fin N → ℂ} (hs : Separated e lam)
    (psi : Matrix (Fin r ⊕ Fin r) (Fin N) ℂ) (extract : Matrix (Fin r ⊕ Fin r) (Fin N) ℂ → (Fin N → ℂ) → Matrix (Fin n) (Fin N) ℂ) :
    makeProperModes e sy junk lam psi extract = makeProperModes e sy junk' lam psi extract := by
  rcases Nat.eq_zero_or_pos N with rfl | hN
  · rw [Subsingleton.elim junk junk']
  haveI : NeZero N := ⟨hN.ne'⟩
  rw [makeProperModes, makeProperModes, runClusters_junk e sy (clusters e lam) _ _ _ _ junk junk' fun i hi =>
    absurd ((clusters_perm e lam (rawB_ne he hs)).2 i) hi]

/-- Four points on the unit circle, each of which is within the tolerance of the next one, but not the last one of the first one. -/
noncomputable def closeLam (eps : ℝ) : Fin 4 → ℂ := fun j => cexp (((9 / 10 * eps * (j.val - 3 / 2) : ℝ) : ℂ) * I)

theorem closeLam_arg {eps : ℝ} (h0 : 0 < eps) (h1 : eps ≤ 1 / 2) (j : Fin 4) : (closeLam eps j).arg = 9 / 10 * eps * (j.val - 3 / 2) := by
  rw [closeLam, Complex.arg_exp_mul_I, toIocMod_eq_self]
  have hj : (j.val : ℝ) ≤ 3 := by exact_mod_cast (by omega : j.val ≤ 3)
  have hj0 : (0 : ℝ) ≤ j.val := by positivity
  constructor <;> nlinarith [Real.two_le_pi]

theorem close_argsort (e : ModeNum n) (he : e.Ok) (h1 : e.eps ≤ 1 / 2) : e.argsort (fun i => (closeLam e.eps i).arg) = 1 := by
  have hm : StrictMono fun i => (closeLam e.eps i).arg := by
    intro i j hij
    have : (i.val : ℝ) < j.val := by exact_mod_cast hij
    simp only [closeLam_arg he.eps h1]
    nlinarith [he.eps]
  have := Tuple.unique_monotone (he.argsort fun i => (closeLam e.eps i).arg) (τ := 1) hm.monotone
  ext1 i
  exact hm.injective (congrFun this i)

open Classical in
theorem close_rawB (e : ModeNum n) (he : e.Ok) (h1 : e.eps ≤ 1 / 2) : rawB e (closeLam e.eps) = [4] := by
  have hpos : ∀ i : ℕ, pos e (closeLam e.eps) i = Fin.ofNat 4 i := by
    intro i
    rw [pos, close_argsort e he h1]
    rfl
  have hε := he.eps
  -- neighbouring points are close
  have hclose : ∀ i : Fin 3, ‖closeLam e.eps i.succ - closeLam e.eps i.castSucc‖ ≤ e.eps := by
    intro i
    rw [closeLam, closeLam]
    set a : ℝ := 9 / 10 * e.eps * ((i.castSucc : Fin 4).val - 3 / 2)
    have hb : 9 / 10 * e.eps * ((i.succ : Fin 4).val - 3 / 2) = a + 9 / 10 * e.eps := by
      simp only [a, Fin.val_succ, Fin.val_castSucc]
      push_cast
      ring
    rw [hb]
    have : cexp (((a + 9 / 10 * e.eps : ℝ) : ℂ) * I) - cexp ((a : ℂ) * I) = cexp ((a : ℂ) * I) * (cexp (I * ((9 / 10 * e.eps : ℝ) : ℂ)) - 1) := by
      rw [mul_sub, ← Complex.exp_add, mul_one]
      congr 2
      push_cast
      ring
    rw [this, norm_mul, Complex.norm_exp_ofReal_mul_I, one_mul]
    refine (Real.norm_exp_I_mul_ofReal_sub_one_le).trans ?_
    rw [Real.norm_eq_abs, abs_of_pos (by positivity)]
    linarith
  have hfar : e.eps < ‖closeLam e.eps 0 - closeLam e.eps 3‖ := by
    rw [closeLam, closeLam]
    set x : ℝ := 27 / 20 * e.eps with hx
    have e1 : (9 / 10 * e.eps * (((0 : Fin 4).val : ℝ) - 3 / 2)) = -x := by simp [hx]; ring
    have e2 : (9 / 10 * e.eps * (((3 : Fin 4).val : ℝ) - 3 / 2)) = x := by simp [hx]; ring
    rw [e1, e2, norm_sub_rev]
    have : cexp ((x : ℂ) * I) - cexp (((-x : ℝ) : ℂ) * I) = ((2 * Real.sin x : ℝ) : ℂ) * I := by
      rw [Complex.exp_mul_I, Complex.exp_mul_I]
      push_cast
      rw [Complex.cos_neg, Complex.sin_neg]
      ring
    rw [this, norm_mul, norm_I, mul_one, Complex.norm_real, Real.norm_eq_abs]
    have hx0 : 0 < x := by positivity
    have hx1 : x ≤ 1 := by rw [hx]; linarith
    have := Real.sin_gt_sub_cube hx0
    refine lt_of_lt_of_le ?_ (le_abs_self _)
    have h3 : x ^ 3 ≤ x := by
      have : x ^ 2 ≤ 1 := by nlinarith
      nlinarith
    nlinarith
  have hj : ∀ i < 7, Jump e (closeLam e.eps) i ↔ i = 3 := by
    intro i hi
    rw [Jump, hpos, hpos]
    have c0 := hclose 0
    have c1 := hclose 1
    have c2 := hclose 2
    interval_cases i
    · exact ⟨fun h => absurd c0 (not_le.mpr h), fun h => by omega⟩
    · exact ⟨fun h => absurd c1 (not_le.mpr h), fun h => by omega⟩
    · exact ⟨fun h => absurd c2 (not_le.mpr h), fun h => by omega⟩
    · exact ⟨fun _ => rfl, fun _ => hfar⟩
    · exact ⟨fun h => absurd c0 (not_le.mpr h), fun h => by omega⟩
    · exact ⟨fun h => absurd c1 (not_le.mpr h), fun h => by omega⟩
    · exact ⟨fun h => absurd c2 (not_le.mpr h), fun h => by omega⟩
  rw [rawB]
  have hf : ((List.range (2 * 4 - 1)).filter fun i => decide (Jump e (closeLam e.eps) i)) = (List.range 7).filter fun i => decide (i = 3) := by
    refine List.filter_congr fun i hi => ?_
    exact decide_eq_decide.mpr (hj i (List.mem_range.mp hi))
  rw [hf]
  rfl

/-- C109: without this hypothesis the result can consist of uninitialised memory: for four eigenvalues on the unit circle that form one group, whose ends are
further apart than the tolerance, the loop is left without treating any mode, and the velocities that are returned are those that happened to be in memory. -/
theorem C109_uninitialised (e : ModeNum n) (he : e.Ok) (h1 : e.eps ≤ 1 / 2) : ∃ lam : Fin 4 → ℂ, (∀ i, ‖lam i‖ = 1) ∧
    ∀ (sy : Symm n) (junk : Fin 4 → ℝ) (psi : Matrix (Fin r ⊕ Fin r) (Fin 4) ℂ) (extract : Matrix (Fin r ⊕ Fin r) (Fin 4) ℂ → (Fin 4 → ℂ) → Matrix (Fin n) (Fin 4) ℂ),
      (∀ i, e.velEps ≤ |junk i|) → (Finset.univ.filter fun i => junk i < 0).card = 2 →
      ∃ o, makeProperModes e sy junk lam psi extract = .ok o ∧ ∃ σ : Equiv.Perm (Fin 4), o.velocities = junk ∘ σ := by
  refine ⟨closeLam e.eps, ?_, ?_⟩
  · intro i
    rw [closeLam, Complex.norm_exp_ofReal_mul_I]
  · intro sy junk psi extract hj hc
    have hv : velCheck e junk = true := by
      rw [velCheck, decide_eq_true_eq]
      refine ⟨fun i => not_lt.mpr (hj i), ?_⟩
      refine (congrArg (2 * ·) (?_ : _ = 2)).trans rfl
      rw [← hc]
    rw [makeProperModes, clusters_nil e _ (close_rawB e he h1), runClusters]
    dsimp only
    rw [if_pos hv]
    exact ⟨_, rfl, _, rfl⟩

end Kwant.Leads
