import Verif.Physics.Circular
import Mathlib.LinearAlgebra.SymplecticGroup

/-!
C98 for class DIII of kwant/rmt.py, `circular`: the argument `charge` is the Pfaffian of `i S`.

Specification of the Pfaffian: `Pf(Bᵀ J B) = det B` with the standard antisymmetric matrix `J`; `pfaffian_unique` proves that the value does not depend on
the factorization, `pfaffian_sq` that its square is the determinant and `pfaffian_two` that it is the upper right entry for 2 × 2 matrices.
-/

set_option linter.unusedSectionVars false

namespace Kwant.Rmt
open Matrix Complex

variable {n : ℕ}

/-! ### Specification -/

/-- The standard antisymmetric matrix: blocks (0 1; -1 0) along the diagonal. -/
def pfJ (n : ℕ) : CMat n := fun i j =>
  if i.val % 2 = 0 ∧ j.val = i.val + 1 then 1 else if j.val % 2 = 0 ∧ i.val = j.val + 1 then -1 else 0

/-- The Pfaffian of the matrix `a` is `d`. -/
def PfaffianIs (a : CMat n) (d : ℂ) : Prop := ∃ b : CMat n, a = bᵀ * pfJ n * b ∧ b.det = d

/-! ### The Pfaffian is well defined -/

/-- Even and odd indices. -/
def evenOdd (m : ℕ) : Fin m ⊕ Fin m ≃ Fin (2 * m) where
  toFun := Sum.elim (fun k => ⟨2 * k.val, by omega⟩) (fun k => ⟨2 * k.val + 1, by omega⟩)
  invFun i := if i.val % 2 = 0 then .inl ⟨i.val / 2, by omega⟩ else .inr ⟨i.val / 2, by omega⟩
  left_inv := by
    rintro (k | k)
    · have h : (2 * k.val) % 2 = 0 := by omega
      simp [h]
    · have h : (2 * k.val + 1) % 2 ≠ 0 := by omega
      have h2 : (2 * k.val + 1) / 2 = k.val := by omega
      simp [h2]
  right_inv := by
    intro i
    by_cases h : i.val % 2 = 0
    · simp only [h, if_true, Sum.elim_inl]
      apply Fin.ext; simp only; omega
    · simp only [h, if_false, Sum.elim_inr]
      apply Fin.ext; simp only; omega

theorem pfJ_blocks (m : ℕ) : (pfJ (2 * m)).submatrix (evenOdd m) (evenOdd m) = -Matrix.J (Fin m) ℂ := by
  ext i j
  rw [submatrix_apply, Matrix.neg_apply]
  rcases i with i | i <;> rcases j with j | j
  · have h1 : ¬ 2 * j.val = 2 * i.val + 1 := by omega
    have h2 : ¬ 2 * i.val = 2 * j.val + 1 := by omega
    simp [pfJ, evenOdd, Matrix.J, h1, h2]
  · by_cases h : i = j
    · subst h
      simp [pfJ, evenOdd, Matrix.J]
    · have h1 : ¬ j.val = i.val := fun e => h (Fin.ext e.symm)
      have h2 : ¬ (2 * j.val + 1) % 2 = 0 := by omega
      simp [pfJ, evenOdd, Matrix.J, h1, h]
  · by_cases h : i = j
    · subst h
      simp [pfJ, evenOdd, Matrix.J]
    · have h1 : ¬ i.val = j.val := fun e => h (Fin.ext e)
      have h2 : ¬ (2 * i.val + 1) % 2 = 0 := by omega
      simp [pfJ, evenOdd, Matrix.J, h1, h]
  · have h1 : ¬ (2 * i.val + 1) % 2 = 0 := by omega
    have h2 : ¬ (2 * j.val + 1) % 2 = 0 := by omega
    simp [pfJ, evenOdd, Matrix.J]

theorem det_pres (hn : 2 ∣ n) {x : CMat n} (h : xᵀ * pfJ n * x = pfJ n) : x.det = 1 := by
  obtain ⟨m, rfl⟩ := hn
  have hs : (x.submatrix (evenOdd m) (evenOdd m)) ∈ symplecticGroup (Fin m) ℂ := by
    rw [SymplecticGroup.mem_iff']
    have h1 := congrArg (fun a => a.submatrix (evenOdd m) (evenOdd m)) h
    simp only [← submatrix_mul_equiv _ _ _ (evenOdd m), pfJ_blocks, ← transpose_submatrix] at h1
    simpa using h1
  have := SymplecticGroup.det_eq_one hs
  rwa [det_submatrix_equiv_self] at this

theorem pfJ_det (hn : 2 ∣ n) : (pfJ n).det = 1 := by
  apply det_pres hn
  obtain ⟨m, rfl⟩ := hn
  have h1 : ((pfJ (2 * m))ᵀ * pfJ (2 * m) * pfJ (2 * m)).submatrix (evenOdd m) (evenOdd m) = (pfJ (2 * m)).submatrix (evenOdd m) (evenOdd m) := by
    simp only [← submatrix_mul_equiv _ _ _ (evenOdd m), pfJ_blocks, ← transpose_submatrix, transpose_neg, J_transpose, neg_neg]
    rw [Matrix.mul_neg, Matrix.mul_neg, J_squared, neg_neg, Matrix.one_mul]
  ext i j
  have := congrFun (congrFun h1 ((evenOdd m).symm i)) ((evenOdd m).symm j)
  simpa using this

/-- The square of the Pfaffian is the determinant. -/
theorem pfaffian_sq (hn : 2 ∣ n) {a : CMat n} {d : ℂ} (h : PfaffianIs a d) : d ^ 2 = a.det := by
  obtain ⟨b, rfl, rfl⟩ := h
  rw [det_mul, det_mul, det_transpose, pfJ_det hn]
  ring

/-- There is only one Pfaffian. -/
theorem pfaffian_unique (hn : 2 ∣ n) {a : CMat n} {d d' : ℂ} (h : PfaffianIs a d) (h' : PfaffianIs a d') : d = d' := by
  have e := pfaffian_sq hn h
  have e' := pfaffian_sq hn h'
  by_cases h0 : a.det = 0
  · rw [h0] at e e'
    rw [pow_eq_zero_iff (by norm_num) |>.mp e, pow_eq_zero_iff (by norm_num) |>.mp e']
  · obtain ⟨b, ha, rfl⟩ := h
    obtain ⟨b', ha', rfl⟩ := h'
    have hb : IsUnit b'.det := by
      refine IsUnit.mk0 _ fun hx => h0 ?_
      rw [← e', hx]; ring
    have hx : (b * b'⁻¹)ᵀ * pfJ n * (b * b'⁻¹) = pfJ n := by
      rw [transpose_mul]
      calc b'⁻¹ᵀ * bᵀ * pfJ n * (b * b'⁻¹) = b'⁻¹ᵀ * (bᵀ * pfJ n * b) * b'⁻¹ := by simp only [Matrix.mul_assoc]
        _ = b'⁻¹ᵀ * (b'ᵀ * pfJ n * b') * b'⁻¹ := by rw [← ha, ← ha']
        _ = (b' * b'⁻¹)ᵀ * pfJ n * (b' * b'⁻¹) := by rw [transpose_mul]; simp only [Matrix.mul_assoc]
        _ = pfJ n := by rw [mul_nonsing_inv _ hb, transpose_one, Matrix.one_mul, Matrix.mul_one]
    have h1 := det_pres hn hx
    rw [det_mul, det_nonsing_inv, Ring.inverse_eq_inv'] at h1
    have hb0 : b'.det ≠ 0 := hb.ne_zero
    field_simp at h1
    exact h1

/-- The Pfaffian of a 2 × 2 matrix. -/
theorem pfaffian_two (x : ℂ) : PfaffianIs (n := 2) !![0, x; -x, 0] x := by
  refine ⟨!![1, 0; 0, x], ?_, by simp⟩
  ext i j
  fin_cases i <;> fin_cases j <;> simp [Matrix.mul_apply, Fin.sum_univ_two, pfJ]

/-! ### The result of the code -/

/-- The signs. -/
noncomputable def tzD (n : ℕ) : CMat n := diagonal fun i => (tz i : ℂ)

theorem tzD_det (hn : 2 ∣ n) : (tzD n).det = (-1) ^ (n / 2) := by
  obtain ⟨m, rfl⟩ := hn
  rw [tzD, det_diagonal, ← Equiv.prod_comp (evenOdd m), Fintype.prod_sum_type, show 2 * m / 2 = m by omega]
  have h1 : ∀ k : Fin m, (tz (evenOdd m (.inl k)) : ℂ) = 1 := fun k => by simp [tz, evenOdd]
  have h2 : ∀ k : Fin m, (tz (evenOdd m (.inr k)) : ℂ) = -1 := fun k => by simp [tz, evenOdd, Nat.add_mod]
  rw [Finset.prod_congr rfl fun k _ => h1 k, Finset.prod_congr rfl fun k _ => h2 k]
  simp

theorem tauY_pfJ (hn : 2 ∣ n) : tauY n = I • ((tzD n)ᵀ * pfJ n * tzD n) := by
  ext i j
  rw [tauY_apply hn, Matrix.smul_apply, tzD, diagonal_transpose, mul_diagonal, diagonal_mul, smul_eq_mul]
  have hv := idx_val hn i
  by_cases h : j = idx i
  · rw [if_pos h]
    subst h
    rw [tz_idx hn]
    by_cases hi : i.val % 2 = 0
    · rw [if_pos hi] at hv
      have : pfJ n i (idx i) = 1 := by unfold pfJ; rw [if_pos ⟨hi, hv⟩]
      have ht : tz i = 1 := by unfold tz; rw [if_pos hi]
      rw [this, ht]; push_cast; ring
    · rw [if_neg hi] at hv
      have : pfJ n i (idx i) = -1 := by unfold pfJ; rw [if_neg (by tauto), if_pos ⟨by omega, by omega⟩]
      have ht : tz i = -1 := by unfold tz; rw [if_neg hi]
      rw [this, ht]; push_cast; ring
  · rw [if_neg h]
    have hne : j.val ≠ (idx i).val := fun e => h (Fin.ext e)
    have : pfJ n i j = 0 := by
      unfold pfJ
      rw [if_neg, if_neg]
      · rintro ⟨h1, h2⟩
        rw [if_neg (by omega)] at hv
        omega
      · rintro ⟨h1, h2⟩
        rw [if_pos h1] at hv
        omega
    rw [this]; ring

/-- **C98**, the charge in class DIII: it is the Pfaffian of the antisymmetric matrix `i S`. -/
theorem C98_charge_DIII {qr : CMat n → CMat n × CMat n} {c : ℤ} {r1 r2 : Matrix (Fin n) (Fin n) ℝ} {bits : ℕ → Bool} {S : CMat n}
    (hqr : QROk (cDraw .DIII r1 r2) (qr (cDraw .DIII r1 r2)).1 (qr (cDraw .DIII r1 r2)).2) (h : circular qr .DIII (some c) r1 r2 bits = .ok S) :
    PfaffianIs (I • S) c := by
  obtain ⟨s0, s, hf, hu0, hr0, hu, hreal, hsp, hdim, hsym⟩ := circular_group hqr h
  have hn := hdim (Or.inl rfl)
  have hS : S = -(sᵀ * tauY n * s) := by rw [← Except.ok.inj hsym, aii_eq hn]
  refine ⟨tzD n * s, ?_, ?_⟩
  · rw [hS, tauY_pfJ hn, transpose_mul, Matrix.mul_smul, Matrix.smul_mul, smul_neg, smul_smul, I_mul_I, neg_smul, one_smul, neg_neg]
    simp only [Matrix.mul_assoc]
  · rw [det_mul, tzD_det hn]
    have hreal' : ∀ t : CMat n, tᴴ * t = 1 → cc t = t → (t.det = 1 ∨ t.det = -1) := by
      intro t h1 h2
      have e1 : starRingEnd ℂ t.det = t.det := by
        rw [RingHom.map_det]
        exact congrArg Matrix.det h2
      have e2 := congrArg Matrix.det h1
      rw [det_mul, det_conjTranspose, det_one] at e2
      have e3 : t.det * t.det = 1 := by rw [← e2]; congr 1; exact e1.symm
      exact mul_self_eq_one_iff.mp e3
    have hpow : ((-1 : ℝ) ^ (n / 2) = 1 ∧ (-1 : ℂ) ^ (n / 2) = 1) ∨ ((-1 : ℝ) ^ (n / 2) = -1 ∧ (-1 : ℂ) ^ (n / 2) = -1) := by
      rcases Nat.even_or_odd (n / 2) with he | ho
      · exact Or.inl ⟨he.neg_one_pow, he.neg_one_pow⟩
      · exact Or.inr ⟨ho.neg_one_pow, ho.neg_one_pow⟩
    have hf' : fixChargeSome .DIII c s0 = .ok s := hf
    unfold fixChargeSome at hf'
    by_cases hc : c ≠ -1 ∧ c ≠ 1
    · rw [if_pos hc] at hf'; cases hf'
    · rw [if_neg hc] at hf'
      have hcd : chargeDet .DIII s0 = s0.det.re * (-1) ^ (n / 2) := by unfold chargeDet; rw [if_pos rfl]
      have hcc : c = -1 ∨ c = 1 := by omega
      by_cases hfl : flipNeeded .DIII c s0
      · rw [if_pos hfl] at hf'
        by_cases hn2 : n < 2
        · rw [if_pos hn2] at hf'; cases hf'
        · rw [if_neg hn2] at hf'
          obtain rfl := Except.ok.inj hf'
          rw [swapLast_det (by omega)]
          unfold flipNeeded at hfl
          rw [hcd] at hfl
          rcases hpow with ⟨p1, p2⟩ | ⟨p1, p2⟩ <;> rw [p1] at hfl <;> rw [p2] <;> rcases hcc with rfl | rfl <;> rcases hreal' s0 hu0 (hr0 rfl) with e | e <;> rw [e] at hfl ⊢ <;>
            first | (exfalso; revert hfl; norm_num; done) | norm_num
      · rw [if_neg hfl] at hf'
        obtain rfl := Except.ok.inj hf'
        unfold flipNeeded at hfl
        rw [hcd] at hfl
        rcases hpow with ⟨p1, p2⟩ | ⟨p1, p2⟩ <;> rw [p1] at hfl <;> rw [p2] <;> rcases hcc with rfl | rfl <;> rcases hreal' s0 hu0 (hr0 rfl) with e | e <;> rw [e] at hfl ⊢ <;>
          first | (exfalso; revert hfl; norm_num; done) | norm_num

/-- Both charges are possible in class DIII, with an explicit draw and decomposition. -/
example (c : ℤ) (hc : c = 1 ∨ c = -1) : ∃ S, circular (n := 2) (fun _ => (1, 1)) .DIII (some c) 1 0 (fun _ => true) = .ok S ∧ PfaffianIs (I • S) c := by
  have e : cDraw (n := 2) .DIII 1 0 = 1 := by
    unfold cDraw
    rw [if_pos (show pSq .DIII = 1 from rfl)]
    ext i j
    unfold drawReal
    rw [one_apply, one_apply]
    split <;> simp
  have hqr : QROk (cDraw (n := 2) .DIII 1 0) 1 1 := by
    rw [e]
    exact ⟨by rw [conjTranspose_one, one_mul], fun i j h => one_apply_ne (ne_of_gt h), one_mul _, fun i => by rw [one_apply_eq]; exact one_ne_zero,
      fun _ => ⟨cc_one, cc_one⟩⟩
  have hv : ValidParams 2 .DIII (some c) := ⟨by decide, fun c' hc' => by obtain rfl := Option.some.inj hc'; simp; omega⟩
  obtain ⟨S, hS⟩ := C98_returns (qr := fun _ => (1, 1)) (bits := fun _ => true) hqr (le_refl 2) hv
  exact ⟨S, hS, C98_charge_DIII hqr hS⟩

end Kwant.Rmt
