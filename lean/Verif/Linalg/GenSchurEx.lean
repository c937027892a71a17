import Verif.Linalg.GenSchurOrder

/-! # A concrete case for C162 and C163 -/

set_option linter.unusedSectionVars false

namespace Kwant.Schur

open Matrix

open Classical in
/-- A reordering routine that succeeds only if nothing has to be moved. -/
noncomputable def idTgsen : Tgsen where
  re n sel s t q z :=
    if h : (List.range n).filter sel = List.range (numSel n sel) ∧
        LeadingBlock n (numSel n sel) s ∧ ∃ w : (ℕ → ℂ) × (ℕ → ℂ), GEigList n s t w.1 w.2 then
      some (s, t, q, z, h.2.2.choose.1, h.2.2.choose.2)
    else none
  cx n sel s t q z :=
    if (List.range n).filter sel = List.range (numSel n sel) then
      some (s, t, q, z, fun k => s k k, fun k => t k k)
    else none

theorem gself {n : ℕ} {sel : ℕ → Bool} (h : (List.range n).filter sel = List.range (numSel n sel))
    (a b : ℕ → ℂ) : GSelectedFirst n sel a b a b := by
  refine ⟨1, fun k => ⟨SameEig.refl _ _, ?_⟩⟩
  have : k.val ∈ (List.range n).filter sel ↔ k.val ∈ List.range (numSel n sel) := by rw [h]
  simp only [List.mem_filter, List.mem_range, k.2, true_and] at this
  exact this.symm

theorem idTgsen_ok : TgsenOK idTgsen := by
  constructor
  · intro n sel s t q z s' t' q' z' a b R _ h
    by_cases hc : (List.range n).filter sel = List.range (numSel n sel) ∧
        LeadingBlock n (numSel n sel) s ∧ ∃ w : (ℕ → ℂ) × (ℕ → ℂ), GEigList n s t w.1 w.2
    · simp only [idTgsen, dif_pos hc, Option.some.injEq, Prod.mk.injEq] at h
      obtain ⟨rfl, rfl, rfl, rfl, rfl, rfl⟩ := h
      refine ⟨R, hc.2.1, hc.2.2.choose_spec, ?_, 1, one_mem _, 1, one_mem _, by simp, by simp,
        by simp, by simp⟩
      intro a0 b0 h0
      exact (gself hc.1 _ _).congr (hc.2.2.choose_spec.unique R h0)
    · simp only [idTgsen, dif_neg hc] at h
      cases h
  · intro n sel s t q z s' t' q' z' a b C h
    by_cases hc : (List.range n).filter sel = List.range (numSel n sel)
    · simp only [idTgsen, if_pos hc, Option.some.injEq, Prod.mk.injEq] at h
      obtain ⟨rfl, rfl, rfl, rfl, rfl, rfl⟩ := h
      exact ⟨C, fun _ _ => ⟨rfl, rfl⟩, gself hc _ _, 1, one_mem _, 1, one_mem _, by simp, by simp,
        by simp, by simp⟩
    · simp only [idTgsen, if_neg hc] at h
      cases h

/-- The pencil with `s = [[0, -1], [1, 0]]` and `t = 1`, eigenvalues `i` and `-i`. -/
def exS : Arr ℝ := fun r c => if r = 0 ∧ c = 1 then -1 else if r = 1 ∧ c = 0 then 1 else 0
/-- The unit matrix. -/
def exOne : Arr ℝ := fun r c => if r = c then 1 else 0

open Classical in
/-- A routine that knows the decomposition of this pencil only. -/
noncomputable def exG : Gges2 := fun s t =>
  if s = blk 0 (toC exS) ∧ t = blk 0 (toC exOne) then
    some (newBlock 0 (-1) 1, 1, rotU (-1) 1, rotU (-1) 1, fun k => newBlock 0 (-1) 1 k k)
  else none

theorem blk_exOne : blk 0 (toC exOne) = 1 := by
  ext x y
  fin_cases x <;> fin_cases y <;> simp [blk, toC, exOne]

theorem exG_ok : GgesOK exG := by
  intro s t sb tb qb zb al h
  by_cases hc : s = blk 0 (toC exS) ∧ t = blk 0 (toC exOne)
  · simp only [exG, if_pos hc, Option.some.injEq, Prod.mk.injEq] at h
    obtain ⟨rfl, rfl, rfl, rfl, rfl⟩ := h
    have hu : rotU (-1) 1 ∈ unitaryGroup (Fin 2) ℂ := rotU_unitary (by norm_num)
    have u1 : rotU (-1) 1 * (rotU (-1) 1)ᴴ = 1 := mem_unitaryGroup_iff.mp hu
    have e : newBlock 0 (-1) 1 = (rotU (-1) 1)ᴴ * blk 0 (toC exS) * rotU (-1) 1 := by
      apply newBlock_eq (by norm_num)
      ext x y
      fin_cases x <;> fin_cases y <;> simp [blk, toC, exS]
    refine ⟨hu, hu, ?_, ?_, ?_, by simp, fun k => rfl, fun k => ⟨1, by norm_num, by simp⟩⟩
    · rw [e, hc.1]
      calc rotU (-1) 1 * ((rotU (-1) 1)ᴴ * blk 0 (toC exS) * rotU (-1) 1) * (rotU (-1) 1)ᴴ
          = (rotU (-1) 1 * (rotU (-1) 1)ᴴ) * blk 0 (toC exS) * (rotU (-1) 1 * (rotU (-1) 1)ᴴ) := by
            simp only [Matrix.mul_assoc]
        _ = _ := by rw [u1]; simp
    · rw [Matrix.mul_one, u1, hc.2, blk_exOne]
    · simp [newBlock]
  · simp only [exG, if_neg hc] at h
    cases h

theorem exS_schur : RealGSchur 2 exS exOne := by
  refine ⟨?_, ?_, ?_, ?_, ?_, ?_, ?_⟩
  · intro r c hr hc; omega
  · intro i hi; omega
  · intro r c hr hc
    have : r ≠ c := by omega
    simp [exOne, this]
  · intro k _
    simp [exOne]
  · intro i _ _
    simp [exOne]
  · intro i _ _
    simp [exOne]
  · intro i hi _ x
    have e : i = 0 := by omega
    subst e
    simp only [pdet, exS, exOne]
    norm_num
    intro h
    have h2 : ((x * x + 1 : ℝ) : ℂ) = 0 := by push_cast; linear_combination h
    have h3 : x * x + 1 = 0 := by exact_mod_cast h2
    nlinarith [mul_self_nonneg x]

/-- The conversion of the example succeeds, with `i` first. -/
theorem C162_example (fuel : ℕ) :
    ∃ s2 t2 q2 z2, gconvert exG (ordTwo idTgsen exG (fuel + 1)) 2
        (.real exS exOne (some exOne) (some exOne)) = .ok (.cplx s2 t2 q2 z2) ∧
      CplxGSchur 2 s2 t2 ∧ s2 0 0 = Complex.I ∧ s2 1 1 = -Complex.I ∧ t2 0 0 = 1 := by
  have hb : blockpos 2 exS = [0] := by
    simp [blockpos, List.range_succ, exS]
  have hg : exG (blk 0 (toC exS)) (blk 0 (toC exOne)) =
      some (newBlock 0 (-1) 1, 1, rotU (-1) 1, rotU (-1) 1, fun k => newBlock 0 (-1) 1 k k) := by
    simp [exG]
  have hi : ¬ ((newBlock 0 (-1) 1 0 0).im < (newBlock 0 (-1) 1 1 1).im) := by
    simp [newBlock]
  rcases C162_convert idTgsen_ok exG_ok fuel exS exOne (some exOne) (some exOne) exS_schur
    ⟨0, by norm_num, by simp [exS]⟩ with h | ⟨s2, t2, q2, z2, e, C, E, _⟩
  · exfalso
    simp [gconvert, hb, gconvStep, conv2, hg, hi, bind, Except.bind, pure, Except.pure] at h
  · refine ⟨s2, t2, q2, z2, e, C, ?_, ?_, ?_⟩
    all_goals
      simp [gconvert, hb, gconvStep, conv2, hg, hi, bind, Except.bind, pure, Except.pure] at e
      obtain ⟨rfl, rfl, _⟩ := e
      simp [mulRight, mulAbove, setBlock, newBlock]

/-- C163 applies to the example and the call succeeds: selecting only the first
eigenvalue separates the pair, and the first eigenvalue of the result is `i`.  The same call
without `q` raises a `ValueError`. -/
theorem C163_example :
    (∃ r, orderGen idTgsen exG 2 2 (fun k => k == 0)
        (.real exS exOne (some exOne) (some exOne)) = .ok r ∧ r.form.isCplx ∧
        r.alpha 0 = Complex.I ∧ r.beta 0 = 1) ∧
    orderGen idTgsen exG 2 2 (fun k => k == 0) (.real exS exOne none (some exOne)) =
      .error .value := by
  have hb : blockpos 2 exS = [0] := by
    simp [blockpos, List.range_succ, exS]
  have hsp : splits 2 (fun k => k == 0) exS = true :=
    splits_iff.mpr ⟨0, by norm_num, by simp [exS], by simp⟩
  have hg : exG (blk 0 (toC exS)) (blk 0 (toC exOne)) =
      some (newBlock 0 (-1) 1, 1, rotU (-1) 1, rotU (-1) 1, fun k => newBlock 0 (-1) 1 k k) := by
    simp [exG]
  have hi : ¬ ((newBlock 0 (-1) 1 0 0).im < (newBlock 0 (-1) 1 1 1).im) := by
    simp [newBlock]
  constructor
  · obtain ⟨s2, t2, q2, z2, e, C, e0, e1, f0⟩ := C162_example 0
    have hsu : splits 2 (fun k => k == 0) s2 = false := splits_upper C.upper_s
    have hfil : (List.range 2).filter (fun k => k == 0) =
        List.range (numSel 2 (fun k => k == 0)) := by decide
    refine ⟨⟨.cplx s2 t2 q2 z2, fun k => s2 k k, fun k => t2 k k⟩, ?_, trivial, e0, f0⟩
    have hlen : (GForm.cplx s2 t2 q2 z2).length = 4 := by
      simp [gconvert, hb, gconvStep, conv2, hg, hi, bind, Except.bind, pure, Except.pure] at e
      obtain ⟨_, _, rfl, rfl⟩ := e
      simp [GForm.length, optCols]
    have unf : orderGen idTgsen exG 2 2 (fun k => k == 0)
        (.real exS exOne (some exOne) (some exOne)) =
        (do
          let f' ← gconvert exG (ordTwo idTgsen exG 1) 2 (.real exS exOne (some exOne) (some exOne))
          if f'.length = 4 then orderGen idTgsen exG 1 2 (fun k => k == 0) f' else .error .value) := by
      rw [orderGen]
      simp only [hsp, if_true]
      rfl
    rw [unf, e]
    simp only [bind, Except.bind, hlen, if_true]
    rw [orderGen]
    simp only [hsu]
    simp only [idTgsen, hfil]
    simp
  · have unf : orderGen idTgsen exG 2 2 (fun k => k == 0) (.real exS exOne none (some exOne)) =
        (do
          let f' ← gconvert exG (ordTwo idTgsen exG 1) 2 (.real exS exOne none (some exOne))
          if f'.length = 4 then orderGen idTgsen exG 1 2 (fun k => k == 0) f' else .error .value) := by
      rw [orderGen]
      simp only [hsp, if_true]
      rfl
    rw [unf]
    simp [gconvert, hb, gconvStep, conv2, hg, hi, bind, Except.bind, pure, Except.pure, optCols,
      GForm.length]

end Kwant.Schur
