import Verif.Leads.ModesThm
import Verif.Leads.BlockEx

/-!
C114: an example of a lead with two conserved blocks that are related by time reversal, and examples of what `modes` does not do.
-/

set_option linter.unusedSectionVars false

namespace Kwant.Leads
open Matrix Complex

variable {n : ℕ}

/-! ### Numerical routines that are exact for a unitary hopping -/

open Classical in
noncomputable def uniLin (d : ℕ) : Numerics d :=
  { svd := fun a => ⟨1, fun _ => 1, a⟩
    rcond := fun m => if IsUnit m.det then 1 else 0
    luSolve := fun m b => m⁻¹ * b
    inv := fun m => m⁻¹
    eps := 1 / 2
    tol := 1 }

theorem uniLin_ok {d : ℕ} {hop : Matrix (Fin d) (Fin d) ℂ} (h : hop * hopᴴ = 1) : (uniLin d).Ok hop := by
  refine ⟨⟨?_, by simp [uniLin], h, fun _ => zero_le_one, fun _ _ _ => le_rfl⟩, ?_, fun m b _ => rfl, fun m _ => rfl, by norm_num [uniLin], by norm_num [uniLin]⟩
  · simp [uniLin]
  · intro k _ _ m hm
    by_contra hc
    have : (uniLin d).rcond m = 0 := if_neg hc
    rw [this] at hm
    exact lt_irrefl _ hm

noncomputable def uniNum (d : ℕ) : BlockNum d := ⟨uniLin d, exactEig (1 / 10), exactNum d (1 / 10) (1 / 10)⟩

theorem uniNum_ok {d : ℕ} {hop : Matrix (Fin d) (Fin d) ℂ} (h : hop * hopᴴ = 1) : (uniNum d).Ok hop :=
  ⟨uniLin_ok h, exactEig_ok (by norm_num), exactNum_ok d (by norm_num) (by norm_num)⟩

theorem uniCut {d : ℕ} (hop : Matrix (Fin d) (Fin d) ℂ) : CutExact (uniNum d).lin hop := by
  intro i hi
  have : (1 : ℝ) ≤ 1 / 2 * 1 := hi
  norm_num at this

theorem uniSetup {d : ℕ} {h hop : Matrix (Fin d) (Fin d) ℂ} (h0 : hop ≠ 0) : setupLinsys (uniNum d).lin h hop none = .ok (linsysReg (uniNum d).lin h hop) := by
  rw [setupLinsys, if_neg h0]
  dsimp only
  rw [if_pos]
  refine ⟨?_, rfl⟩
  have : (Finset.univ.filter fun i : Fin d => ((uniNum d).lin.svd hop).s i > (uniNum d).lin.eps * ((uniNum d).lin.svd hop).s ⟨0, i.pos⟩) = Finset.univ := by
    ext i
    have : (1 : ℝ) > 1 / 2 * 1 := by norm_num
    simp only [Finset.mem_filter, Finset.mem_univ, true_and, iff_true]
    exact this
  rw [nNonsing, this]
  simp

/-! ### One orbital per cell with an imaginary hopping -/

theorem oneBloch {z μ : ℂ} (hz : star z = -z) (hμ : μ ≠ 0) (ψ : Fin 1 → ℂ) : IsBloch 0 !![z] μ ψ ↔ z * (μ - μ⁻¹) * ψ 0 = 0 := by
  rw [isBloch_iff _ _ hμ, funext_iff]
  have hz' : (starRingEnd ℂ) z = -z := hz
  simp [mulVec, dotProduct, hz']
  have : μ * (z * ψ 0) + -(μ⁻¹ * (z * ψ 0)) = z * (μ - μ⁻¹) * ψ 0 := by ring
  rw [this]
  simp

theorem oneRoots {z μ : ℂ} (hz : star z = -z) (h0 : z ≠ 0) (hμ : μ ≠ 0) {ψ : Fin 1 → ℂ} (hψ : ψ ≠ 0) (hb : IsBloch 0 !![z] μ ψ) : μ = 1 ∨ μ = -1 := by
  have h1 := (oneBloch hz hμ ψ).mp hb
  have h2 : ψ 0 ≠ 0 := by
    intro h
    apply hψ
    ext i
    rw [Subsingleton.elim i 0, h]
    rfl
  have h3 := (mul_eq_zero.mp ((mul_eq_zero.mp h1).resolve_right h2)).resolve_left h0
  have h4 : (μ - 1) * (μ + 1) = 0 := by
    have := congrArg (μ * ·) h3
    simp only [mul_sub, mul_inv_cancel₀ hμ, mul_zero] at this
    linear_combination this
  rcases mul_eq_zero.mp h4 with h | h
  · exact .inl (sub_eq_zero.mp h)
  · exact .inr (eq_neg_of_add_eq_zero_left h)

theorem oneWellSep {z : ℂ} (hz : star z = -z) (hn : z * star z = 1) (hfl : NoFlatBand 0 !![z]) (hed : NoBandEdge 0 !![z]) (L : Linsys 1)
    (hL : setupLinsys (uniNum 1).lin 0 !![z] none = .ok L) : WellSeparated (uniNum 1) L := by
  have h0 : z ≠ 0 := by rintro rfl; simp at hn
  have hu : !![z] * !![z]ᴴ = 1 := by
    ext i j
    rw [Subsingleton.elim i 0, Subsingleton.elim j 0]
    simpa [mul_apply] using hn
  have hok := uniNum_ok hu
  obtain ⟨u, hf⟩ := setup_faithful (uniNum 1).lin hok.lin hL (uniCut _) (by simp)
  have hr := regular_of_flat hf hfl
  obtain ⟨hs, h1, h2, h3, h4, h5⟩ := unified_spec hok.eig L.a L.b
  have hLb : L.b = none := by
    have hne : !![z] ≠ 0 := by
      intro h
      apply h0
      simpa using congrFun (congrFun h 0) 0
    have := (uniSetup hne).symm.trans hL
    cases this
    rfl
  have hβ : ∀ i, ((uniNum 1).eig.eig L.a L.b).beta i = 1 := by
    rw [hLb]
    intro i
    exact congrFun (hok.eig.schur L.a).2 i
  have hroot : ∀ i, ((uniNum 1).eig.eig L.a L.b).alpha i = 0 ∨ ((uniNum 1).eig.eig L.a L.b).alpha i = 1 ∨ ((uniNum 1).eig.eig L.a L.b).alpha i = -1 := by
    intro i
    by_cases h0' : ((uniNum 1).eig.eig L.a L.b).alpha i = 0
    · exact .inl h0'
    right
    obtain ⟨x, hx0, hx⟩ := eig_root hs hr i
    rw [hβ, one_smul] at hx
    obtain ⟨ψ, g1, g2, _⟩ := (hf.solution h0' x).mp ((solution_iff_getD L _ x).mpr hx)
    refine oneRoots hz h0 h0' (fun h6 => hx0 ?_) g1
    rw [g2, h6, mulVec_zero, mulVec_zero, smul_zero]
    ext i
    rcases i with i | i <;> rfl
  have heps : (uniNum 1).eig.eps = 1 / 10 := rfl
  have hgap : CircleGap (uniNum 1).eig.eps ((uniNum 1).eig.eig L.a L.b) := by
    intro i
    rw [hβ, heps, norm_one]
    rcases hroot i with h | h | h <;> rw [h]
    · right; right; norm_num
    · left; simp
    · left; simp
  refine ⟨hgap, ?_⟩
  have hin := propInput_block isHermitian_zero hf hed hfl hok.eig hgap
  have hpm : ∀ i, ((unifiedEigenproblem (uniNum 1).eig L.a L.b).ev ∘ (selected (unifiedEigenproblem (uniNum 1).eig L.a L.b).propselect).get) i = 1 ∨
      ((unifiedEigenproblem (uniNum 1).eig L.a L.b).ev ∘ (selected (unifiedEigenproblem (uniNum 1).eig L.a L.b).propselect).get) i = -1 := by
    intro i
    have hu := hin.unit i
    rw [Function.comp_apply, h3, hβ, div_one] at hu ⊢
    rcases hroot ((selected (unifiedEigenproblem (uniNum 1).eig L.a L.b).propselect).get i) with h | h | h
    · rw [h] at hu; norm_num at hu
    · exact .inl h
    · exact .inr h
  have hmeps : (uniNum 1).mode.eps = 1 / 10 := rfl
  intro i j hij
  rw [hmeps] at hij
  rcases hpm i with h | h <;> rcases hpm j with h' | h' <;> rw [h, h'] at hij ⊢
  · norm_num at hij
  · norm_num at hij

/-! ### Two such chains that are related by time reversal -/

noncomputable def exM : ModesNum := ⟨uniNum, fun _ _ _ => 0, none⟩

noncomputable def trHop : Matrix (Fin 2) (Fin 2) ℂ := diagonal ![I, -I]

@[reducible] def trProj : Projectors 2 := ⟨2, fun _ => 1, fun b => of fun i _ => if i = b then 1 else 0⟩

def trSym : Symm 2 := ⟨some !![0, 1; 1, 0], none, none⟩

theorem trBlk (a : Matrix (Fin 2) (Fin 2) ℂ) (x y : Fin 2) : trProj.blk a x y = !![a x y] := by
  refine Matrix.ext fun (i : Fin 1) (j : Fin 1) => ?_
  change ((of fun i (_ : Fin 1) => if i = x then (1 : ℂ) else 0)ᴴ * a * (of fun i (_ : Fin 1) => if i = y then (1 : ℂ) else 0)) i j = _
  rw [Subsingleton.elim i 0, Subsingleton.elim j 0, mul_apply]
  simp [mul_apply, conjTranspose_apply]

theorem trAblk (a : Matrix (Fin 2) (Fin 2) ℂ) (x y : Fin 2) : trProj.ablk a x y = !![a x y] := by
  rw [← trBlk]
  have : (trProj.proj y).map (starRingEnd ℂ) = trProj.proj y := by
    ext i j
    change (starRingEnd ℂ) (if i = y then 1 else 0) = if i = y then 1 else 0
    split <;> simp
  change (trProj.proj x)ᴴ * a * (trProj.proj y).map (starRingEnd ℂ) = (trProj.proj x)ᴴ * a * trProj.proj y
  rw [this]

theorem trPad : padHop trHop = trHop := by
  ext i j
  have : j.val < 2 := j.2
  change (if h : j.val < 2 then trHop i ⟨j.val, h⟩ else 0) = _
  rw [dif_pos this]

theorem trBloch {μ : ℂ} (hμ : μ ≠ 0) (ψ : Fin 2 → ℂ) : IsBloch 0 trHop μ ψ ↔ (μ - μ⁻¹) * ψ 0 = 0 ∧ (μ - μ⁻¹) * ψ 1 = 0 := by
  rw [isBloch_iff _ _ hμ, funext_iff, Fin.forall_fin_two]
  have e1 : (((0 : Matrix (Fin 2) (Fin 2) ℂ) *ᵥ ψ + μ • (trHop *ᵥ ψ) + μ⁻¹ • (trHopᴴ *ᵥ ψ)) 0) = I * ((μ - μ⁻¹) * ψ 0) := by
    simp [trHop, mulVec_diagonal, diagonal_conjTranspose]
    ring
  have e2 : (((0 : Matrix (Fin 2) (Fin 2) ℂ) *ᵥ ψ + μ • (trHop *ᵥ ψ) + μ⁻¹ • (trHopᴴ *ᵥ ψ)) 1) = -I * ((μ - μ⁻¹) * ψ 1) := by
    simp [trHop, mulVec_diagonal, diagonal_conjTranspose]
    ring
  rw [e1, e2]
  simp

theorem trFlat : NoFlatBand 0 trHop := by
  refine ⟨2, by norm_num, fun ψ hψ => ?_⟩
  obtain ⟨h1, h2⟩ := (trBloch (by norm_num) ψ).mp hψ
  have h0 : (2 : ℂ) - 2⁻¹ ≠ 0 := by norm_num
  ext i
  fin_cases i
  · exact (mul_eq_zero.mp h1).resolve_left h0
  · exact (mul_eq_zero.mp h2).resolve_left h0

theorem trVel (k : ℝ) (ψ : Fin 2 → ℂ) : velK trHop k *ᵥ ψ = ![(cexp (-(I * k)) + star (cexp (-(I * k)))) * ψ 0, -(cexp (-(I * k)) + star (cexp (-(I * k)))) * ψ 1] := by
  ext i
  fin_cases i <;> simp [velK, trHop, mulVec, dotProduct, Fin.sum_univ_two, diagonal_apply, conjTranspose_apply]
  · left
    linear_combination -(cexp (-(I * k)) + (starRingEnd ℂ) (cexp (-(I * k)))) * I_mul_I
  · left
    linear_combination (cexp (-(I * k)) + (starRingEnd ℂ) (cexp (-(I * k)))) * I_mul_I

theorem trUnit {k : ℝ} {x : ℂ} (hx : x ≠ 0) (h : (cexp (-(I * k)) - (cexp (-(I * k)))⁻¹) * x = 0) :
    cexp (-(I * k)) + star (cexp (-(I * k))) = 2 ∨ cexp (-(I * k)) + star (cexp (-(I * k))) = -2 := by
  have h1 := (mul_eq_zero.mp h).resolve_right hx
  have hμ : cexp (-(I * k)) ≠ 0 := Complex.exp_ne_zero _
  generalize cexp (-(I * k)) = μ at *
  have h4 : (μ - 1) * (μ + 1) = 0 := by
    have := congrArg (μ * ·) h1
    simp only [mul_sub, mul_inv_cancel₀ hμ, mul_zero] at this
    linear_combination this
  rcases mul_eq_zero.mp h4 with h | h
  · left; rw [sub_eq_zero.mp h]; norm_num
  · right; rw [eq_neg_of_add_eq_zero_left h]; norm_num

theorem trEdge : NoBandEdge 0 trHop := by
  intro k ψ hψ hφ
  obtain ⟨h1, h2⟩ := (trBloch (Complex.exp_ne_zero _) ψ).mp hψ
  have g0 := hφ ![ψ 0, 0] ((trBloch (Complex.exp_ne_zero _) _).mpr ⟨h1, by simp⟩)
  have g1 := hφ ![0, ψ 1] ((trBloch (Complex.exp_ne_zero _) _).mpr ⟨by simp, h2⟩)
  rw [trVel] at g0 g1
  simp only [dotProduct, Fin.sum_univ_two, Pi.star_apply, cons_val_zero, cons_val_one, star_zero, zero_mul, add_zero, zero_add] at g0 g1
  have hne : ∀ {x : ℂ}, x ≠ 0 → (cexp (-(I * k)) - (cexp (-(I * k)))⁻¹) * x = 0 → cexp (-(I * k)) + star (cexp (-(I * k))) ≠ 0 := by
    intro x hx h
    rcases trUnit hx h with h | h <;> rw [h] <;> norm_num
  ext i
  fin_cases i
  · by_contra hx
    have hx' : ψ 0 ≠ 0 := hx
    exact absurd g0 (mul_ne_zero (star_ne_zero.mpr hx') (mul_ne_zero (hne hx' h1) hx'))
  · by_contra hx
    have hx' : ψ 1 ≠ 0 := hx
    exact absurd g1 (mul_ne_zero (star_ne_zero.mpr hx') (mul_ne_zero (neg_ne_zero.mpr (hne hx' h2)) hx'))

theorem trDot (x y : Fin 2) : (trProj.proj x)ᴴ * trProj.proj y = !![(1 : Matrix (Fin 2) (Fin 2) ℂ) x y] := by
  have := trBlk 1 x y
  unfold Projectors.blk at this
  rw [Matrix.mul_one] at this
  exact this

theorem fin1_zero {z : ℂ} (hz : z = 0) : !![z] = 0 := by
  ext i j
  rw [Subsingleton.elim i 0, Subsingleton.elim j 0]
  simp [hz]

theorem fin1_one {z : ℂ} (hz : z = 1) : !![z] = 1 := by
  ext i j
  rw [Subsingleton.elim i 0, Subsingleton.elim j 0]
  simp [hz]

theorem trProjOk : trProj.Ok 0 trHop := by
  refine ⟨?_, ?_, ?_, ?_, ?_⟩
  · refine fun (b : Fin 2) => ?_
    exact (trDot b b).trans (fin1_one (one_apply_eq b))
  · refine fun (a : Fin 2) (b : Fin 2) hab => ?_
    exact (trDot a b).trans (fin1_zero (one_apply_ne hab))
  · ext i j
    change (∑ b : Fin 2, (of fun i (_ : Fin 1) => if i = b then (1 : ℂ) else 0) * (of fun i (_ : Fin 1) => if i = b then (1 : ℂ) else 0)ᴴ) i j = _
    rw [Fin.sum_univ_two]
    fin_cases i <;> fin_cases j <;> simp [mul_apply, conjTranspose_apply]
  · refine fun (a : Fin 2) (b : Fin 2) hab => ?_
    exact (trBlk 0 a b).trans (fin1_zero rfl)
  · refine fun (a : Fin 2) (b : Fin 2) hab => ?_
    exact (trBlk trHop a b).trans (fin1_zero (diagonal_apply_ne _ hab))

theorem nonzeroSymm_zero {a b : ℕ} : nonzeroSymm (0 : Matrix (Fin a) (Fin b) ℂ) = none := by
  rw [nonzeroSymm, if_neg]
  simp

theorem trInner : NoInner trProj trSym := by
  refine fun (b : Fin 2) => ⟨?_, ?_, ?_⟩
  · have h : trProj.ablk (trSym.tr.getD 0) b b = 0 := (trAblk _ b b).trans (fin1_zero (by fin_cases b <;> rfl))
    unfold symTr
    rw [h, nonzeroSymm_zero]
  · have h : trProj.ablk (trSym.ph.getD 0) b b = 0 := (trAblk _ b b).trans (fin1_zero rfl)
    unfold symPh
    rw [h, nonzeroSymm_zero]
  · have h : trProj.blk (trSym.chiral.getD 0) b b = 0 := (trBlk _ b b).trans (fin1_zero rfl)
    unfold symChiral
    rw [h, nonzeroSymm_zero]

theorem trSymm : SymmOk trProj trSym 0 trHop := by
  refine ⟨?_, ?_, ?_⟩
  · intro U hU
    have hU : U = !![0, 1; 1, 0] := (Option.some.inj hU).symm
    subst hU
    refine ⟨by simp, ?_, ?_⟩
    · ext i j
      rw [if_neg (by simp), one_smul, mul_apply, mul_apply, Fin.sum_univ_two, Fin.sum_univ_two]
      fin_cases i <;> fin_cases j <;> simp [trHop, cj]
    · refine fun (x : Fin 2) (y : Fin 2) => ?_
      have h1 : (trProj.proj y)ᴴ * (!![0, 1; 1, 0] : Matrix (Fin 2) (Fin 2) ℂ) * (trProj.proj x).map (cj true) = !![(!![0, 1; 1, 0] : Matrix (Fin 2) (Fin 2) ℂ) y x] := trAblk !![0, 1; 1, 0] y x
      by_cases hxy : x = y
      · left
        rw [h1]
        apply fin1_zero
        subst hxy
        fin_cases x <;> rfl
      · right
        have h2 : (!![0, 1; 1, 0] : Matrix (Fin 2) (Fin 2) ℂ) y x = 1 := by
          fin_cases x <;> fin_cases y <;> first | rfl | exact absurd rfl hxy
        have h3 := h1.trans (fin1_one h2)
        have h4 : (1 : Matrix (Fin 1) (Fin 1) ℂ)ᴴ * 1 = 1 := by simp
        have h5 : (1 : Matrix (Fin 1) (Fin 1) ℂ) * 1ᴴ = 1 := by simp
        exact ⟨(congrArg (fun B : Matrix (Fin 1) (Fin 1) ℂ => Bᴴ * B) h3).trans h4, (congrArg (fun B : Matrix (Fin 1) (Fin 1) ℂ => B * Bᴴ) h3).trans h5⟩
  · intro U hU
    cases hU
  · intro U hU
    cases hU

theorem trImag (b : Fin 2) : star (trHop b b) = -trHop b b ∧ trHop b b * star (trHop b b) = 1 := by
  fin_cases b <;> simp [trHop]

/-- All hypotheses of C114 hold in the example. -/
theorem trOk : LeadOk exM trProj trSym 0 trHop := by
  refine ⟨trProjOk, trSymm, trInner.benign _ _ _, isHermitian_zero, trEdge, trFlat, ?_, ?_, fun b => uniCut _, ?_⟩
  · intro s0 hs
    cases hs
  · refine fun (b : Fin 2) => ?_
    refine uniNum_ok ?_
    have h1 : trProj.blk trHop b b * (trProj.blk trHop b b)ᴴ = !![trHop b b] * !![trHop b b]ᴴ := congrArg (fun B : Matrix (Fin 1) (Fin 1) ℂ => B * Bᴴ) (trBlk trHop b b)
    rw [h1]
    refine Matrix.ext fun (i : Fin 1) (j : Fin 1) => ?_
    rw [Subsingleton.elim i 0, Subsingleton.elim j 0, mul_apply]
    simpa using (trImag b).2
  · refine fun (b : Fin 2) L hL => ?_
    have h1 := block_flat trProjOk trFlat b
    have h2 := block_edge trProjOk trEdge b
    have e1 : trProj.blk 0 b b = (0 : Matrix (Fin 1) (Fin 1) ℂ) := (trBlk 0 b b).trans (fin1_zero rfl)
    have e2 := trBlk trHop b b
    rw [e1, e2] at h1 h2 hL
    exact oneWellSep (trImag b).1 (trImag b).2 h1 h2 L hL

/-- C114: `modes` returns modes for the example, and there are propagating modes. -/
theorem C114_example : ∃ M : LeadModes 2 2, modes exM (some trProj) trSym 0 trHop = .ok M ∧ ModesSpec trProj trSym 0 trHop M ∧ 0 < M.p := by
  have ho : LeadOk exM ((some trProj).getD (Projectors.default 2)) trSym 0 (padHop trHop) := by
    rw [trPad]
    exact trOk
  match hm : modes exM (some trProj) trSym 0 trHop with
  | .ok M =>
    have hs := C114_modes ho hm
    refine ⟨M, rfl, hs, ?_⟩
    obtain ⟨s, hspec, _⟩ := hs.spec
    rw [trPad] at hspec
    have hb : IsBloch 0 trHop (cexp (-(I * (0 : ℝ)))) ![1, 0] := by
      rw [trBloch (Complex.exp_ne_zero _)]
      simp
    obtain ⟨c, _, hc⟩ := hspec.complete 0 ![1, 0] hb
    by_contra h0
    have h1 : IsEmpty (Fin M.p ⊕ Fin M.p) := by
      have : M.p = 0 := by omega
      refine ⟨fun x => ?_⟩
      rcases x with x | x <;> exact absurd x.2 (by omega)
    have := congrFun hc 0
    rw [mulVec, dotProduct, Finset.univ_eq_empty, Finset.sum_empty] at this
    norm_num at this
  | .error x =>
    exfalso
    rcases C114_error ho hm with h | ⟨b, hb⟩
    · exact absurd h.1 (by norm_num)
    · have ho := trOk
      rw [trPad] at hb
      have hin := trInner.eq b
      have hb : computeBlockModes (exM.num (trProj.dim b)) ⟨none, none, none⟩ (exM.junk b) (trProj.blk 0 b b) (trProj.blk trHop b b) exM.stab = .error x := by
        rw [← hin]; exact hb
      rcases C113_error _ (ho.num b) (block_herm ho.herm b) (ho.cut b) (block_edge ho.proj ho.edge b) (block_flat ho.proj ho.flat b) (fun s0 hs => by cases hs) (ho.sep b) _ hb with h | ⟨_, k, v, ψ, h1, h2, h3', h4⟩
      · have hne : trProj.blk trHop b b ≠ 0 := by
          intro h0
          have := (trImag b).2
          have h5 := congrFun (congrFun ((trBlk trHop b b).symm.trans h0) (0 : Fin 1)) (0 : Fin 1)
          have h6 : trHop b b = 0 := h5
          have h7 := (trImag b).2
          rw [h6] at h7
          simp at h7
        have := (uniSetup hne).symm.trans h
        cases this
      · have h3 := h3' ψ h1
        rw [h2, mul_one] at h3
        have hp := isBloch_proj ho.proj (Complex.exp_ne_zero _) b h1
        obtain ⟨g1, g2⟩ := (trBloch (Complex.exp_ne_zero _) _).mp hp
        have hv : star (trProj.proj b *ᵥ ψ) ⬝ᵥ (velK trHop k *ᵥ (trProj.proj b *ᵥ ψ)) = v := by
          rw [velK_eq, star_mulVec, ← dotProduct_mulVec, velMu_proj ho.proj, mulVec_mulVec, ho.proj.orthonormal, one_mulVec, ← h3, velK_eq]
        have hn : star (trProj.proj b *ᵥ ψ) ⬝ᵥ (trProj.proj b *ᵥ ψ) = 1 := by
          rw [star_mulVec, ← dotProduct_mulVec, mulVec_mulVec, ho.proj.orthonormal, one_mulVec, h2]
        have h5 : (exM.num (trProj.dim b)).mode.velEps = 1 / 10 := rfl
        rw [h5] at h4
        have hcomp : ∀ i : Fin 2, i ≠ b → (trProj.proj b *ᵥ ψ) i = 0 := by
          intro i hi
          change ∑ x : Fin 1, (if i = b then (1 : ℂ) else 0) * ψ x = 0
          rw [if_neg hi]
          simp
        generalize trProj.proj b *ᵥ ψ = φ at *
        rw [trVel] at hv
        simp only [dotProduct, Fin.sum_univ_two, Pi.star_apply, cons_val_zero, cons_val_one] at hv hn
        have hfin : (v : ℂ) = 2 ∨ (v : ℂ) = -2 := by
          have hb : b = (0 : Fin 2) ∨ b = (1 : Fin 2) := by
            have : ∀ b : Fin 2, b = 0 ∨ b = 1 := by decide
            exact this b
          rcases hb with hb | hb
          · have h0 := hcomp 1 (by rw [hb]; decide)
            rw [h0] at hv hn
            have hne : φ 0 ≠ 0 := by intro h; rw [h] at hn; norm_num at hn
            simp only [mul_zero, add_zero] at hv hn
            rcases trUnit hne g1 with h | h <;> rw [h] at hv
            · left; rw [← hv]; linear_combination 2 * hn
            · right; rw [← hv]; linear_combination -2 * hn
          · have h0 := hcomp 0 (by rw [hb]; decide)
            rw [h0] at hv hn
            have hne : φ 1 ≠ 0 := by intro h; rw [h] at hn; norm_num at hn
            simp only [mul_zero, zero_add] at hv hn
            rcases trUnit hne g2 with h | h <;> rw [h] at hv
            · right; rw [← hv]; linear_combination -2 * hn
            · left; rw [← hv]; linear_combination 2 * hn
        rcases hfin with h | h
        · have : v = 2 := by exact_mod_cast h
          rw [this] at h4
          norm_num at h4
        · have : v = -2 := by exact_mod_cast h
          rw [this] at h4
          norm_num at h4

/-! ### What `modes` does not do -/

/-- A block without hopping makes `modes` fail, although the lead with the same Hamiltonian and without `projectors` may have modes (C108 treats singular hoppings).  Here
the block is the first one. -/
theorem C114_zero_block (e : ModesNum) (P : Projectors n) (sy : Symm n) (h hop : Matrix (Fin n) (Fin n) ℂ) (h0 : hop ≠ 0) (hnb : 0 < P.nb) (hb : P.blk hop ⟨0, hnb⟩ ⟨0, hnb⟩ = 0) :
    modes e (some P) sy h hop = .error .valueError := by
  have hpad : padHop hop = hop := by
    ext i j
    change (if h : j.val < n then hop i ⟨j.val, h⟩ else 0) = _
    rw [dif_pos j.2]
  have hstep : modesStep e P sy h hop (fun _ => none) ⟨0, hnb⟩ ⟨0, hnb⟩ = .error .valueError := by
    rw [modesStep, if_pos rfl, hb, computeBlockModes, setupLinsys, if_pos rfl]
  have hpairs : ∃ l, pairs P.nb = (⟨0, hnb⟩, ⟨0, hnb⟩) :: l := by
    obtain ⟨nb, hn⟩ : ∃ nb, P.nb = nb + 1 := ⟨P.nb - 1, by omega⟩
    have key : ∀ (N : ℕ) (hN : 0 < N), N = nb + 1 → ∃ l, pairs N = ((⟨0, hN⟩ : Fin N), (⟨0, hN⟩ : Fin N)) :: l := by
      intro N hN hN'
      subst hN'
      rw [pairs, List.finRange_succ, List.flatMap_cons, List.filter_cons_of_pos (by simp), List.map_cons, List.cons_append]
      exact ⟨_, rfl⟩
    exact key _ hnb hn
  obtain ⟨l, hl⟩ := hpairs
  rw [modes, if_neg h0, dif_pos le_rfl]
  simp only [Option.getD_some, hpad, hl, runModes, hstep]

/-- The order of the modes that are obtained by time reversal of those of another block is the opposite of the documented one. -/
theorem C114_tr_order {n' : ℕ} (U : Matrix (Fin n') (Fin n) ℂ) {m : BM n} (hs : m.Sorted) {i j : Fin m.p} (hij : i < j) (hk : m.mom (.inr i) ≠ m.mom (.inr j)) :
    ¬ (transformModes .tr U m).Sorted := by
  rintro ⟨h1, _⟩
  have h2 := (hs.2 i j hij).resolve_right fun h => hk h.1
  have h3 := h1 (j.rev : Fin m.p) (i.rev : Fin m.p) (Fin.rev_lt_rev.mpr hij)
  have e : ∀ i : Fin m.p, (transformModes .tr U m).mom (.inl i.rev) = - m.mom (.inr i) := by
    intro i
    change (if Rel.tr.conj then -1 else 1 : ℝ) * m.mom (Rel.tr.perm (.inl i.rev)) = _
    rw [Rel.perm_inl]
    simp [Rel.conj]
  rw [e i, e j] at h3
  rcases h3 with h3 | h3
  · linarith
  · exact hk (neg_injective h3.1.symm)

/-- For the symmetries that flip the energy, `vecslmbdainv` is `-v†` times the wave function of the mode. -/
theorem C114_sign {n' : ℕ} {k : Rel} (hk : k.flip = true) {U : Matrix (Fin n') (Fin n) ℂ} {h hop : Matrix (Fin n) (Fin n) ℂ} {h' hop' : Matrix (Fin n') (Fin n') ℂ} {m : BM n}
    (hr : Related U k.conj k.flip h hop h' hop') (hm : m.Spec h hop fun _ => 1) (hd : m.Directed) (i : Fin m.p ⊕ Fin m.p) :
    (transformModes k U m).vecsl.col (.inl i) = -((transformModes k U m).vᴴ *ᵥ (transformModes k U m).wf.col i) := by
  obtain ⟨u, _, _, h1, _⟩ := (transform_spec hr hm hd).1.solves
  rw [(h1 i).1, hk]
  simp

end Kwant.Leads
