import Verif.Physics.Rmt
import Mathlib.LinearAlgebra.Matrix.Block
import Mathlib.LinearAlgebra.UnitaryGroup
import Mathlib.LinearAlgebra.Matrix.Trace
import Mathlib.LinearAlgebra.Matrix.Determinant.Basic

/-!
C98: kwant/rmt.py, `circular`.

Simplifications: exact arithmetic; the random arrays are arbitrary; `np.linalg.qr` is an arbitrary function with the contract `QROk`
(q unitary, r upper triangular, q r = h, both real if h is); `np.allclose(x, 0)` is `x = 0`; charges are integers.
-/

set_option linter.unusedSectionVars false

namespace Kwant.Rmt
open Matrix Complex

variable {n : ℕ}

/-- Square complex matrices. -/
abbrev CMat (n : ℕ) := Matrix (Fin n) (Fin n) ℂ

/-- Exceptions of `circular`: `ValueError`s (l.215-217, l.246-247, l.272-273, l.281-282), `RuntimeError` (l.239-240), `IndexError`
(l.255 for n = 1). -/
inductive CErr where
  | odd | qrFailure | badCharge | index
  deriving DecidableEq

/-- `randn(n, n)` (rmt.py l.222) -/
def drawReal (r1 : Matrix (Fin n) (Fin n) ℝ) : CMat n := fun i j => (r1 i j : ℂ)

/-- `randn(n, n) + 1j * randn(n, n)` (rmt.py l.225, l.228) -/
noncomputable def drawComplex (r1 r2 : Matrix (Fin n) (Fin n) ℝ) : CMat n := fun i j => (r1 i j : ℂ) + I * (r2 i j : ℂ)

/-- The Gaussian matrix (rmt.py l.220-233) -/
noncomputable def cDraw (sym : Cls) (r1 r2 : Matrix (Fin n) (Fin n) ℝ) : CMat n :=
  if pSq sym = 1 then drawReal r1
  else if pSq sym = 0 then drawComplex r1 r2
  else I • (drawComplex r1 r2 - twist tz idx (drawComplex r1 r2))

/-- `h = np.diag(h).copy(); h /= np.abs(h); s *= h` (rmt.py l.241-243): the columns of `s` get the phases of the diagonal of `r`. -/
noncomputable def fixPhases (q r : CMat n) : CMat n := fun i j => q i j * (r j j / (‖r j j‖ : ℂ))

/-- `np.diag(h, 1)[::2]` vanishes (rmt.py l.239) -/
def superZero (r : CMat n) : Prop := ∀ i j : Fin n, i.val % 2 = 0 → j.val = i.val + 1 → r i j = 0

/-- `idx = arange(n); idx[-1] -= 1; idx[-2] += 1; s = s[idx]` (rmt.py l.252-256) -/
def swapLast (s : CMat n) : CMat n := fun i j =>
  s (if h : i.val = n - 1 then ⟨i.val - 1, by omega⟩ else if h : i.val = n - 2 ∧ i.val + 1 < n then ⟨i.val + 1, h.2⟩ else i) j

/-- `det` (rmt.py l.249-251) -/
noncomputable def chargeDet (sym : Cls) (s : CMat n) : ℝ :=
  if sym = .DIII then s.det.re * (-1) ^ (n / 2) else s.det.re

/-- `(charge > 0) != (det > 0)` (rmt.py l.252) -/
def flipNeeded (sym : Cls) (c : ℤ) (s : CMat n) : Prop := (0 < c) ≠ (0 < chargeDet sym s)

open Classical in
/-- rmt.py l.247-256 -/
noncomputable def fixChargeSome (sym : Cls) (c : ℤ) (s : CMat n) : Except CErr (CMat n) :=
  if c ≠ -1 ∧ c ≠ 1 then .error .badCharge
  else if flipNeeded sym c s then (if n < 2 then .error .index else .ok (swapLast s))
  else .ok s

/-- Classes D and DIII (rmt.py l.246-256). -/
noncomputable def fixCharge (sym : Cls) (charge : Option ℤ) (s : CMat n) : Except CErr (CMat n) :=
  if sym = .D ∨ sym = .DIII then
    match charge with
    | none => .ok s
    | some c => fixChargeSome sym c s
  else .ok s

/-- The diagonal of the chiral classes (rmt.py l.268-282).  `bits` are the results of `rng.randint(2)`. -/
noncomputable def chiralDiag (sym : Cls) (n : ℕ) (charge : Option ℤ) (bits : ℕ → Bool) : Except CErr (Fin n → ℝ) :=
  if sym ≠ .CII then
    match charge with
    | none => .ok fun i => 2 * (if bits i.val then 1 else 0) - 1
    | some c => if 0 ≤ c ∧ c ≤ n then .ok fun i => if (i.val : ℤ) < c then -1 else 1 else .error .badCharge
  else
    match charge with
    | none => .ok fun i => 2 * (if bits (i.val / 2) then 1 else 0) - 1
    | some c => if 0 ≤ c ∧ c ≤ ((n / 2 : ℕ) : ℤ) then .ok fun i => if (i.val : ℤ) < c * 2 then -1 else 1 else .error .badCharge

/-- The symmetrization (rmt.py l.259-284). -/
noncomputable def symmetrize (sym : Cls) (charge : Option ℤ) (bits : ℕ → Bool) (s : CMat n) : Except CErr (CMat n) :=
  match sym with
  | .AI => .ok (sᵀ * s)
  | .CI => let x := sᵀ * s; .ok fun i j => I * (tz j : ℂ) * x i (idx j)
  | .AII | .DIII => .ok (I • ((Matrix.of fun i k => sᵀ i k * (tz k : ℂ) : CMat n) * (Matrix.of fun k j => s (idx k) j : CMat n)))
  | .AIII | .BDI | .CII =>
    match chiralDiag sym n charge bits with
    | .error e => .error e
    | .ok d => .ok ((Matrix.of fun i k => (d k : ℂ) * sᴴ i k : CMat n) * s)
  | _ => .ok s

/-- `circular(n, sym, charge, rng)` (rmt.py l.166-286) -/
noncomputable def circular (qr : CMat n → CMat n × CMat n) (sym : Cls) (charge : Option ℤ) (r1 r2 : Matrix (Fin n) (Fin n) ℝ) (bits : ℕ → Bool) :
    Except CErr (CMat n) :=
  open Classical in
  if (tSq sym = -1 ∨ pSq sym = -1) ∧ n % 2 ≠ 0 then .error .odd
  else
    let h := cDraw sym r1 r2
    let q := (qr h).1
    let r := (qr h).2
    if pSq sym = -1 ∧ ¬ superZero r then .error .qrFailure
    else
      match fixCharge sym charge (fixPhases q r) with
      | .error e => .error e
      | .ok s => symmetrize sym charge bits s

/-- The contract of `np.linalg.qr`, for nonsingular matrices. -/
structure QROk (h q r : CMat n) : Prop where
  unitary : qᴴ * q = 1
  upper : ∀ i j, j < i → r i j = 0
  mul : q * r = h
  diag : ∀ i, r i i ≠ 0
  real : cc h = h → cc q = q ∧ cc r = r

/-! ### Specification -/

/-- Time reversal (rmt.py l.199-203). -/
def CTime (sym : Cls) (s : CMat n) : Prop :=
  match sym with
  | .AI | .BDI => s = sᵀ
  | .CI => s = -(tauY n * sᵀ * tauY n)
  | .AII | .DIII => s = -sᵀ
  | .CII => s = tauY n * sᵀ * tauY n
  | _ => True

/-- Particle-hole symmetry (rmt.py l.204-208). -/
def CParticle (sym : Cls) (s : CMat n) : Prop :=
  match sym with
  | .CI => s = -(tauY n * cc s * tauY n)
  | .C | .CII => s = tauY n * cc s * tauY n
  | .D | .BDI => s = cc s
  | .DIII => -s = cc s
  | _ => True

/-- Chiral symmetry (rmt.py l.197-198). -/
def CChiral (sym : Cls) (s : CMat n) : Prop :=
  match sym with
  | .AIII | .BDI | .CII | .CI | .DIII => s = sᴴ
  | _ => True

/-- The circular ensemble. -/
structure InCircular (sym : Cls) (s : CMat n) : Prop where
  unitary : sᴴ * s = 1
  time : CTime sym s
  particle : CParticle sym s
  chiral : CChiral sym s

/-! ### Lemmas -/

theorem cc_mul (a b : CMat n) : cc (a * b) = cc a * cc b := Matrix.map_mul
theorem cc_cc (a : CMat n) : cc (cc a) = a := by ext i j; simp [cc]
theorem cc_one : cc (1 : CMat n) = 1 := by unfold cc; rw [Matrix.map_one _ (map_zero _) (map_one _)]
theorem cc_transpose (a : CMat n) : (cc a)ᵀ = aᴴ := by ext i j; simp [cc, conjTranspose_apply]
theorem cc_herm (a : CMat n) : (cc a)ᴴ = aᵀ := by ext i j; simp [cc, conjTranspose_apply]

theorem tauY_apply (hn : 2 ∣ n) (i j : Fin n) : tauY n i j = if j = idx i then -I * (tz i : ℂ) else 0 := by rw [tauY_eq hn]; rfl

theorem idx_comm (hn : 2 ∣ n) (i j : Fin n) : i = idx j ↔ j = idx i :=
  ⟨fun h => by rw [h, idx_idx hn], fun h => by rw [h, idx_idx hn]⟩

theorem tauY_sq (hn : 2 ∣ n) : tauY n * tauY n = 1 := by
  ext i j
  have : (tauY n * tauY n) i j = -I * (tz i : ℂ) * tauY n (idx i) j := by
    conv_lhs => rw [tauY_eq hn, mono_mul]
    rw [tauY_eq hn]
  rw [this, tauY_apply hn, idx_idx hn, tz_idx hn, one_apply]
  by_cases h : i = j
  · subst h
    rw [if_pos rfl, if_pos rfl]
    push_cast
    linear_combination (-(tz i : ℂ) * tz i) * I_mul_I + tzC_sq i
  · rw [if_neg (fun e => h e.symm), if_neg h, mul_zero]

theorem tauY_transpose (hn : 2 ∣ n) : (tauY n)ᵀ = -tauY n := by
  ext i j
  rw [transpose_apply, Matrix.neg_apply, tauY_apply hn, tauY_apply hn]
  by_cases h : j = idx i
  · rw [if_pos ((idx_comm hn i j).mpr h), if_pos h, h, tz_idx hn]
    push_cast; ring
  · rw [if_neg (fun e => h ((idx_comm hn i j).mp e)), if_neg h, neg_zero]

theorem tauY_conj (hn : 2 ∣ n) : cc (tauY n) = -tauY n := by
  ext i j
  rw [Matrix.neg_apply]
  show starRingEnd ℂ (tauY n i j) = _
  rw [tauY_apply hn]
  split <;> simp

theorem tauY_herm (hn : 2 ∣ n) : (tauY n)ᴴ = tauY n := by
  rw [← cc_transpose, tauY_conj hn, transpose_neg, tauY_transpose hn, neg_neg]

/-- Uniqueness of the QR decomposition with positive diagonal. -/
theorem qr_unique {q1 r1 q2 r2 : CMat n} (u1 : q1ᴴ * q1 = 1) (u2 : q2ᴴ * q2 = 1) (t1 : ∀ i j, j < i → r1 i j = 0) (t2 : ∀ i j, j < i → r2 i j = 0)
    (d1 : ∀ i, ∃ x : ℝ, 0 < x ∧ r1 i i = x) (d2 : ∀ i, ∃ x : ℝ, 0 < x ∧ r2 i i = x) (h : q1 * r1 = q2 * r2) : q1 = q2 := by
  have b1 : BlockTriangular r1 id := fun i j hij => t1 i j hij
  have b2 : BlockTriangular r2 id := fun i j hij => t2 i j hij
  have hdet : IsUnit r1.det := by
    rw [det_of_upperTriangular b1]
    refine IsUnit.mk0 _ (Finset.prod_ne_zero_iff.mpr fun i _ => ?_)
    obtain ⟨x, hx, e⟩ := d1 i
    rw [e]
    exact_mod_cast hx.ne'
  set u := q2ᴴ * q1 with hu
  have hur : u * r1 = r2 := by
    rw [hu, mul_assoc, h, ← mul_assoc, u2, one_mul]
  have hinv : Invertible r1 := r1.invertibleOfIsUnitDet hdet
  have hub : BlockTriangular u id := by
    have : u = r2 * r1⁻¹ := by rw [← hur, mul_assoc, mul_nonsing_inv r1 hdet, mul_one]
    rw [this]
    exact b2.mul (blockTriangular_inv_of_blockTriangular b1)
  have huu : uᴴ * u = 1 := by
    have v2 : q2 * q2ᴴ = 1 := mul_eq_one_comm.mp u2
    rw [hu, conjTranspose_mul, conjTranspose_conjTranspose, mul_assoc, ← mul_assoc q2, v2, one_mul, u1]
  have huu' : u * uᴴ = 1 := mul_eq_one_comm.mp huu
  have hui : IsUnit u.det := by
    rw [isUnit_iff_exists_inv]
    exact ⟨uᴴ.det, by rw [← det_mul, huu', det_one]⟩
  have hinvu : Invertible u := u.invertibleOfIsUnitDet hui
  have hub' : BlockTriangular uᴴ id := by
    have : uᴴ = u⁻¹ := (inv_eq_left_inv huu).symm
    rw [this]
    exact blockTriangular_inv_of_blockTriangular hub
  have hdiag : ∀ i j, i ≠ j → u i j = 0 := by
    intro i j hij
    rcases lt_or_gt_of_ne hij with hlt | hgt
    · have := hub' (show id i < id j from hlt)
      rw [conjTranspose_apply] at this
      exact star_eq_zero.mp this
    · exact hub (show id j < id i from hgt)
  have hone : u = 1 := by
    ext i j
    rw [one_apply]
    by_cases hij : i = j
    · subst hij
      rw [if_pos rfl]
      have e1 : u i i * r1 i i = r2 i i := by
        rw [← hur, mul_apply, Finset.sum_eq_single i]
        · intro k _ hk; rw [hdiag i k hk.symm, zero_mul]
        · intro hx; exact absurd (Finset.mem_univ _) hx
      have e2 : starRingEnd ℂ (u i i) * u i i = 1 := by
        have := congrFun (congrFun huu i) i
        rw [mul_apply, Finset.sum_eq_single i, one_apply_eq] at this
        · exact this
        · intro k _ hk; rw [hdiag k i hk, mul_zero]
        · intro hx; exact absurd (Finset.mem_univ _) hx
      obtain ⟨x, hx, ex⟩ := d1 i
      obtain ⟨y, hy, ey⟩ := d2 i
      rw [ex, ey] at e1
      have hx0 : (x : ℂ) ≠ 0 := by exact_mod_cast hx.ne'
      have e3 : u i i = ((y / x : ℝ) : ℂ) := by
        push_cast
        rw [eq_div_iff hx0]; exact e1
      rw [e3, conj_ofReal, ← ofReal_mul] at e2
      have e4 : (y / x) * (y / x) = 1 := by exact_mod_cast e2
      have e5 : 0 < y / x := div_pos hy hx
      have e6 : y / x = 1 := by nlinarith
      rw [e3, e6, ofReal_one]
    · rw [if_neg hij]; exact hdiag i j hij
  have v2 : q2 * q2ᴴ = 1 := mul_eq_one_comm.mp u2
  calc q1 = q2 * q2ᴴ * q1 := by rw [v2, one_mul]
    _ = q2 * u := by rw [hu, mul_assoc]
    _ = q2 := by rw [hone, mul_one]

/-- The phases of the diagonal. -/
noncomputable def phase (r : CMat n) (j : Fin n) : ℂ := r j j / (‖r j j‖ : ℂ)

theorem phase_conj {r : CMat n} {j : Fin n} (h : r j j ≠ 0) : starRingEnd ℂ (phase r j) * phase r j = 1 := by
  have hn : (‖r j j‖ : ℂ) ≠ 0 := by exact_mod_cast norm_ne_zero_iff.mpr h
  have : starRingEnd ℂ (r j j) * r j j = (‖r j j‖ : ℂ) * ‖r j j‖ := by
    rw [mul_comm, Complex.mul_conj, Complex.normSq_eq_norm_sq]; push_cast; ring
  unfold phase
  rw [map_div₀, conj_ofReal, div_mul_div_comm, this, div_self (mul_ne_zero hn hn)]

theorem fixPhases_unitary {h q r : CMat n} (hq : QROk h q r) : (fixPhases q r)ᴴ * fixPhases q r = 1 := by
  ext i j
  have e : ((fixPhases q r)ᴴ * fixPhases q r) i j = starRingEnd ℂ (phase r i) * phase r j * (qᴴ * q) i j := by
    rw [mul_apply, mul_apply, Finset.mul_sum]
    refine Finset.sum_congr rfl fun k _ => ?_
    simp only [conjTranspose_apply, fixPhases, phase, star_mul', RCLike.star_def]
    ring
  rw [e, hq.unitary, one_apply]
  split
  · next hij => subst hij; rw [mul_one, phase_conj (hq.diag i)]
  · rw [mul_zero]

theorem fixPhases_real {h q r : CMat n} (hq : QROk h q r) (hr : cc h = h) : cc (fixPhases q r) = fixPhases q r := by
  obtain ⟨h1, h2⟩ := hq.real hr
  ext i j
  have e1 : starRingEnd ℂ (q i j) = q i j := congrFun (congrFun h1 i) j
  have e2 : starRingEnd ℂ (r j j) = r j j := congrFun (congrFun h2 j) j
  show starRingEnd ℂ (fixPhases q r i j) = _
  simp only [fixPhases, map_mul, map_div₀, conj_ofReal, e1, e2]

/-- The triangular factor after the phases have been absorbed. -/
noncomputable def fixR (r : CMat n) : CMat n := fun i j => starRingEnd ℂ (phase r i) * r i j

theorem fix_mul {h q r : CMat n} (hq : QROk h q r) : fixPhases q r * fixR r = h := by
  rw [← hq.mul]
  ext i j
  rw [mul_apply, mul_apply]
  refine Finset.sum_congr rfl fun k _ => ?_
  have := phase_conj (hq.diag k)
  show q i k * phase r k * (starRingEnd ℂ (phase r k) * r k j) = _
  linear_combination q i k * r k j * this

theorem fixR_diag {h q r : CMat n} (hq : QROk h q r) (i : Fin n) : ∃ x : ℝ, 0 < x ∧ fixR r i i = x := by
  have hpos : 0 < ‖r i i‖ := norm_pos_iff.mpr (hq.diag i)
  refine ⟨‖r i i‖, hpos, ?_⟩
  have hn : (‖r i i‖ : ℂ) ≠ 0 := by exact_mod_cast hpos.ne'
  have e : starRingEnd ℂ (r i i) * r i i = (‖r i i‖ : ℂ) * ‖r i i‖ := by
    rw [mul_comm, Complex.mul_conj, Complex.normSq_eq_norm_sq]; push_cast; ring
  unfold fixR phase
  rw [map_div₀, conj_ofReal, div_mul_eq_mul_div, e, mul_div_assoc, div_self hn, mul_one]

/-- The remark "for a reason as yet unknown" of the documentation (rmt.py l.211-212): if the matrix is quaternion-real and the check of the code passes, the
unitary factor is symplectic, by the uniqueness of the decomposition. -/
theorem symplectic {h q r : CMat n} (hn : 2 ∣ n) (hq : QROk h q r) (hh : tauY n * cc h * tauY n = h) (hs : superZero r) :
    fixPhases q r = tauY n * cc (fixPhases q r) * tauY n := by
  set s := fixPhases q r with hsdef
  have hu : sᴴ * s = 1 := fixPhases_unitary hq
  have hR : tauY n * cc (fixR r) * tauY n = tw 1 tz idx (fixR r) := tauY_cc hn _
  refine qr_unique (r1 := fixR r) (r2 := tauY n * cc (fixR r) * tauY n) hu ?_ ?_ ?_ (fixR_diag hq) ?_ ?_
  · have hc : (cc s)ᴴ * cc s = 1 := by
      have := congrArg cc hu
      rw [cc_mul, cc_one] at this
      rw [← this]
      congr 1
    rw [conjTranspose_mul, conjTranspose_mul, tauY_herm hn]
    calc tauY n * ((cc s)ᴴ * tauY n) * (tauY n * cc s * tauY n) = tauY n * ((cc s)ᴴ * (tauY n * tauY n) * cc s) * tauY n := by
          simp only [mul_assoc]
      _ = 1 := by rw [tauY_sq hn, mul_one, hc, mul_one, tauY_sq hn]
  · intro i j hij
    show starRingEnd ℂ (phase r i) * r i j = 0
    rw [hq.upper i j hij, mul_zero]
  · intro i j hij
    rw [hR]
    have hz : fixR r (idx i) (idx j) = 0 := by
      show starRingEnd ℂ (phase r (idx i)) * r (idx i) (idx j) = 0
      have hij' : j.val < i.val := hij
      have vi := idx_val hn i
      have vj := idx_val hn j
      by_cases hlt : (idx j).val < (idx i).val
      · rw [hq.upper _ _ hlt, mul_zero]
      · rw [hs (idx i) (idx j), mul_zero]
        · split at vi <;> split at vj <;> omega
        · split at vi <;> split at vj <;> omega
    simp only [tw, hz, map_zero, mul_zero, zero_mul]
  · intro i
    obtain ⟨x, hx, e⟩ := fixR_diag hq (idx i)
    refine ⟨x, hx, ?_⟩
    rw [hR]
    simp only [tw, e, conj_ofReal, ofReal_one, one_mul]
    linear_combination (x : ℂ) * tzC_sq i
  · rw [hsdef, fix_mul hq]
    calc h = tauY n * cc h * tauY n := hh.symm
      _ = tauY n * cc (s * fixR r) * tauY n := by rw [hsdef, fix_mul hq]
      _ = tauY n * cc s * tauY n * (tauY n * cc (fixR r) * tauY n) := by
        rw [cc_mul]
        calc tauY n * (cc s * cc (fixR r)) * tauY n = tauY n * cc s * (tauY n * tauY n) * cc (fixR r) * tauY n := by
              rw [tauY_sq hn, mul_one]; simp only [mul_assoc]
          _ = _ := by simp only [mul_assoc]

theorem cDraw_real {sym : Cls} (hp : pSq sym = 1) (r1 r2 : Matrix (Fin n) (Fin n) ℝ) : cc (cDraw sym r1 r2) = cDraw sym r1 r2 := by
  unfold cDraw
  rw [if_pos hp]
  ext i j
  simp [cc, drawReal]

theorem cDraw_symplectic {sym : Cls} (hn : 2 ∣ n) (hp : pSq sym = -1) (r1 r2 : Matrix (Fin n) (Fin n) ℝ) :
    tauY n * cc (cDraw sym r1 r2) * tauY n = cDraw sym r1 r2 := by
  rw [tauY_cc hn]
  unfold cDraw
  rw [if_neg (by rw [hp]; decide), if_neg (by rw [hp]; decide)]
  ext i j
  simp only [tw, Matrix.smul_apply, Matrix.sub_apply, twist, smul_eq_mul, map_mul, map_sub, conj_I, Complex.conj_conj, conj_ofReal, idx_idx hn,
    tz_idx hn, ofReal_one, ofReal_neg, map_neg, one_mul]
  generalize drawComplex r1 r2 i j = x
  have h1 := tzC_sq i
  have h2 := tzC_sq j
  linear_combination (I * x * tz j * tz j) * h1 + I * x * h2

/-- The swap of the last two rows as a permutation. -/
theorem swapLast_eq (hn : 2 ≤ n) (s : CMat n) :
    swapLast s = s.submatrix (Equiv.swap (⟨n - 2, by omega⟩ : Fin n) ⟨n - 1, by omega⟩) id := by
  have q2 : n - 2 < n := by omega
  have q1 : n - 1 < n := by omega
  ext i j
  unfold swapLast
  rw [submatrix_apply]
  congr 1
  have eL : ∀ k : Fin n, k.val = n - 2 → Equiv.swap (⟨n - 2, q2⟩ : Fin n) ⟨n - 1, q1⟩ k = ⟨n - 1, q1⟩ := fun k hk => by
    obtain rfl : k = ⟨n - 2, q2⟩ := Fin.ext hk
    exact Equiv.swap_apply_left _ _
  have eR : ∀ k : Fin n, k.val = n - 1 → Equiv.swap (⟨n - 2, q2⟩ : Fin n) ⟨n - 1, q1⟩ k = ⟨n - 2, q2⟩ := fun k hk => by
    obtain rfl : k = ⟨n - 1, q1⟩ := Fin.ext hk
    exact Equiv.swap_apply_right _ _
  by_cases h1 : i.val = n - 1
  · rw [dif_pos h1, eR i h1]
    apply Fin.ext; simp only; omega
  · rw [dif_neg h1]
    by_cases h2 : i.val = n - 2
    · rw [dif_pos ⟨h2, by omega⟩, eL i h2]
      apply Fin.ext; simp only; omega
    · rw [dif_neg (by tauto), Equiv.swap_apply_of_ne_of_ne (fun e => h2 (by rw [e])) (fun e => h1 (by rw [e]))]

theorem swapLast_unitary (hn : 2 ≤ n) {s : CMat n} (h : sᴴ * s = 1) : (swapLast s)ᴴ * swapLast s = 1 := by
  rw [swapLast_eq hn, conjTranspose_submatrix, submatrix_mul_equiv, h]
  exact submatrix_one_equiv (Equiv.refl _)

theorem swapLast_real {s : CMat n} (h : cc s = s) : cc (swapLast s) = swapLast s := by
  ext i j
  have := congrFun (congrFun h (if h : i.val = n - 1 then ⟨i.val - 1, by omega⟩ else if h : i.val = n - 2 ∧ i.val + 1 < n then ⟨i.val + 1, h.2⟩ else i)) j
  exact this

theorem swapLast_det (hn : 2 ≤ n) (s : CMat n) : (swapLast s).det = -s.det := by
  rw [swapLast_eq hn, det_permute, Equiv.Perm.sign_swap]
  · simp
  · intro e; have := congrArg Fin.val e; simp only at this; omega

theorem fixCharge_ok {sym : Cls} {charge : Option ℤ} {s s' : CMat n} (h : fixCharge sym charge s = .ok s') (hu : sᴴ * s = 1) :
    s'ᴴ * s' = 1 ∧ (cc s = s → cc s' = s') ∧ (sym ≠ .D → sym ≠ .DIII → s' = s) := by
  unfold fixCharge at h
  by_cases hd : sym = .D ∨ sym = .DIII
  · rw [if_pos hd] at h
    have triv : s'ᴴ * s' = 1 ∧ (cc s = s → cc s' = s') → s'ᴴ * s' = 1 ∧ (cc s = s → cc s' = s') ∧ (sym ≠ .D → sym ≠ .DIII → s' = s) :=
      fun hx => ⟨hx.1, hx.2, fun h1 h2 => absurd hd (by tauto)⟩
    apply triv
    cases charge with
    | none =>
      obtain rfl := Except.ok.inj h
      exact ⟨hu, fun h => h⟩
    | some c =>
      have h' : fixChargeSome sym c s = .ok s' := h
      unfold fixChargeSome at h'
      by_cases hc : c ≠ -1 ∧ c ≠ 1
      · rw [if_pos hc] at h'; cases h'
      · rw [if_neg hc] at h'
        by_cases hf : flipNeeded sym c s
        · rw [if_pos hf] at h'
          by_cases hn : n < 2
          · rw [if_pos hn] at h'; cases h'
          · rw [if_neg hn] at h'
            obtain rfl := Except.ok.inj h'
            exact ⟨swapLast_unitary (by omega) hu, swapLast_real⟩
        · rw [if_neg hf] at h'
          obtain rfl := Except.ok.inj h'
          exact ⟨hu, fun h => h⟩
  · rw [if_neg hd] at h
    obtain rfl := Except.ok.inj h
    exact ⟨hu, fun h => h, fun _ _ => rfl⟩

/-- Before the symmetrization, the matrix is in O(N), U(N) or USp(N). -/
theorem circular_group {qr : CMat n → CMat n × CMat n} {sym : Cls} {charge : Option ℤ} {r1 r2 : Matrix (Fin n) (Fin n) ℝ} {bits : ℕ → Bool} {S : CMat n}
    (hqr : QROk (cDraw sym r1 r2) (qr (cDraw sym r1 r2)).1 (qr (cDraw sym r1 r2)).2) (h : circular qr sym charge r1 r2 bits = .ok S) :
    ∃ s0 s, fixCharge sym charge s0 = .ok s ∧ s0ᴴ * s0 = 1 ∧ (pSq sym = 1 → cc s0 = s0) ∧ sᴴ * s = 1 ∧ (pSq sym = 1 → cc s = s) ∧ (pSq sym = -1 → s = tauY n * cc s * tauY n) ∧
      (tSq sym = -1 ∨ pSq sym = -1 → 2 ∣ n) ∧ symmetrize sym charge bits s = .ok S := by
  unfold circular at h
  split at h
  · cases h
  · next hdim =>
    have hd : tSq sym = -1 ∨ pSq sym = -1 → 2 ∣ n := fun hx => by
      by_contra hc
      exact hdim ⟨hx, by omega⟩
    simp only at h
    split at h
    · cases h
    · next hz =>
      have hu := fixPhases_unitary hqr
      cases hf : fixCharge sym charge (fixPhases (qr (cDraw sym r1 r2)).1 (qr (cDraw sym r1 r2)).2) with
      | error e => rw [hf] at h; cases h
      | ok s =>
        rw [hf] at h
        obtain ⟨h1, h2, h3⟩ := fixCharge_ok hf hu
        have hre : pSq sym = 1 → cc (fixPhases (qr (cDraw sym r1 r2)).1 (qr (cDraw sym r1 r2)).2) = fixPhases (qr (cDraw sym r1 r2)).1 (qr (cDraw sym r1 r2)).2 :=
          fun hp => fixPhases_real hqr (cDraw_real hp r1 r2)
        refine ⟨_, s, hf, hu, hre, h1, fun hp => h2 (hre hp), fun hp => ?_, hd, h⟩
        have hn := hd (Or.inr hp)
        have hs : s = fixPhases (qr (cDraw sym r1 r2)).1 (qr (cDraw sym r1 r2)).2 :=
          h3 (by rintro rfl; simp [pSq] at hp) (by rintro rfl; simp [pSq] at hp)
        rw [hs]
        refine symplectic hn hqr (cDraw_symplectic hn hp r1 r2) ?_
        by_contra hx
        exact hz ⟨hp, hx⟩

theorem herm_eq_transpose_cc (a : CMat n) : aᴴ = cc aᵀ := by ext i j; simp [cc, conjTranspose_apply]

theorem ci_eq (hn : 2 ∣ n) (x : CMat n) : (fun i j => I * (tz j : ℂ) * x i (idx j) : CMat n) = x * tauY n := by
  ext i j
  rw [tauY_eq hn, mul_mono _ (idx_idx hn), tz_idx hn]
  push_cast; ring

theorem aii_eq (hn : 2 ∣ n) (s : CMat n) :
    I • ((Matrix.of fun i k => sᵀ i k * (tz k : ℂ) : CMat n) * (Matrix.of fun k j => s (idx k) j : CMat n)) = -(sᵀ * tauY n * s) := by
  ext i j
  rw [Matrix.smul_apply, Matrix.neg_apply, mul_assoc, mul_apply, mul_apply, smul_eq_mul, Finset.mul_sum, ← Finset.sum_neg_distrib]
  refine Finset.sum_congr rfl fun k _ => ?_
  rw [tauY_eq hn, mono_mul]
  simp only [of_apply]
  ring

theorem chir_eq (d : Fin n → ℝ) (s : CMat n) : (Matrix.of fun i k => (d k : ℂ) * sᴴ i k : CMat n) * s = sᴴ * diagonal (fun i => (d i : ℂ)) * s := by
  congr 1
  ext i j
  rw [mul_diagonal, of_apply, mul_comm]

theorem chiralDiag_ok {sym : Cls} {charge : Option ℤ} {bits : ℕ → Bool} {d : Fin n → ℝ} (h : chiralDiag sym n charge bits = .ok d) :
    (∀ i, d i = 1 ∨ d i = -1) ∧ (sym = .CII → 2 ∣ n → ∀ i, d (idx i) = d i) := by
  have hb : ∀ b : Bool, (2 : ℝ) * (if b = true then 1 else 0) - 1 = 1 ∨ (2 : ℝ) * (if b = true then 1 else 0) - 1 = -1 := by
    intro b; cases b <;> norm_num
  unfold chiralDiag at h
  split at h
  · next hs =>
    refine ⟨?_, fun h' => absurd h' hs⟩
    cases charge with
    | none => obtain rfl := Except.ok.inj h; exact fun i => hb _
    | some c =>
      simp only at h
      split at h
      · obtain rfl := Except.ok.inj h
        intro i; dsimp only; split <;> simp
      · cases h
  · cases charge with
    | none =>
      obtain rfl := Except.ok.inj h
      refine ⟨fun i => hb _, fun _ hn i => ?_⟩
      have hv := idx_val hn i
      have : (idx i).val / 2 = i.val / 2 := by split at hv <;> omega
      simp only [this]
    | some c =>
      simp only at h
      split at h
      · obtain rfl := Except.ok.inj h
        refine ⟨fun i => by dsimp only; split <;> simp, fun _ hn i => ?_⟩
        have hv := idx_val hn i
        have : (((idx i).val : ℤ) < c * 2) ↔ ((i.val : ℤ) < c * 2) := by split at hv <;> omega
        simp only [this]
      · cases h

theorem neg_mul_tauY (hn : 2 ∣ n) (x : CMat n) : x * tauY n * tauY n = x := by rw [mul_assoc, tauY_sq hn, mul_one]

theorem tauY_neg_mul (hn : 2 ∣ n) (x : CMat n) : tauY n * (tauY n * x) = x := by rw [← mul_assoc, tauY_sq hn, one_mul]

/-- `s† D s` with a real diagonal matrix of signs. -/
theorem signs_sq {d : Fin n → ℝ} (h : ∀ i, d i = 1 ∨ d i = -1) : diagonal (fun i => (d i : ℂ)) * diagonal (fun i => (d i : ℂ)) = 1 := by
  rw [diagonal_mul_diagonal, ← diagonal_one]
  congr 1
  funext i
  rcases h i with e | e <;> rw [e] <;> norm_num

theorem signs_herm (d : Fin n → ℝ) : (diagonal (fun i => (d i : ℂ)))ᴴ = diagonal (fun i => (d i : ℂ)) := by
  rw [diagonal_conjTranspose]
  congr 1
  funext i
  exact conj_ofReal _

theorem signs_cc (d : Fin n → ℝ) : cc (diagonal (fun i => (d i : ℂ))) = diagonal (fun i => (d i : ℂ)) := by
  unfold cc
  rw [diagonal_map (map_zero _)]
  congr 1
  funext i
  exact conj_ofReal _

theorem signs_comm (hn : 2 ∣ n) {d : Fin n → ℝ} (h : ∀ i, d (idx i) = d i) :
    diagonal (fun i => (d i : ℂ)) * tauY n = tauY n * diagonal (fun i => (d i : ℂ)) := by
  ext i j
  rw [diagonal_mul, mul_diagonal, tauY_apply hn]
  split
  · next e => rw [e, h]; ring
  · ring

theorem uni_mul {a b : CMat n} (ha : aᴴ * a = 1) (hb : bᴴ * b = 1) : (a * b)ᴴ * (a * b) = 1 := by
  rw [conjTranspose_mul]
  calc bᴴ * aᴴ * (a * b) = bᴴ * (aᴴ * a) * b := by simp only [mul_assoc]
    _ = 1 := by rw [ha, mul_one, hb]

theorem uni_transpose {a : CMat n} (ha : aᴴ * a = 1) : (aᵀ)ᴴ * aᵀ = 1 := by
  have h : a * aᴴ = 1 := mul_eq_one_comm.mp ha
  have := congrArg Matrix.transpose h
  rw [transpose_mul, transpose_one] at this
  exact this

theorem uni_herm {a : CMat n} (ha : aᴴ * a = 1) : (aᴴ)ᴴ * aᴴ = 1 := by
  rw [conjTranspose_conjTranspose]; exact mul_eq_one_comm.mp ha

theorem uni_neg {a : CMat n} (ha : aᴴ * a = 1) : (-a)ᴴ * (-a) = 1 := by rw [conjTranspose_neg, neg_mul_neg, ha]

theorem tauY_uni (hn : 2 ∣ n) : (tauY n)ᴴ * tauY n = 1 := by rw [tauY_herm hn, tauY_sq hn]

theorem cc_neg (a : CMat n) : cc (-a) = -cc a := by ext i j; simp [cc]

/-- `s† D s` is unitary and Hermitian. -/
theorem chiral_ok {s : CMat n} {d : Fin n → ℝ} (hu : sᴴ * s = 1) (hd : ∀ i, d i = 1 ∨ d i = -1) :
    (sᴴ * diagonal (fun i => (d i : ℂ)) * s)ᴴ * (sᴴ * diagonal (fun i => (d i : ℂ)) * s) = 1 ∧
    sᴴ * diagonal (fun i => (d i : ℂ)) * s = (sᴴ * diagonal (fun i => (d i : ℂ)) * s)ᴴ := by
  have hD : (diagonal (fun i => (d i : ℂ)) : CMat n)ᴴ * diagonal (fun i => (d i : ℂ)) = 1 := by rw [signs_herm, signs_sq hd]
  refine ⟨uni_mul (uni_mul (uni_herm hu) hD) hu, ?_⟩
  rw [conjTranspose_mul, conjTranspose_mul, conjTranspose_conjTranspose, signs_herm, mul_assoc]

/-- The chiral classes in the code. -/
theorem symmetrize_chiral {sym : Cls} (hc : sym = .AIII ∨ sym = .BDI ∨ sym = .CII) {charge : Option ℤ} {bits : ℕ → Bool} {s S : CMat n}
    (h : symmetrize sym charge bits s = .ok S) : ∃ d : Fin n → ℝ, chiralDiag sym n charge bits = .ok d ∧ S = sᴴ * diagonal (fun i => (d i : ℂ)) * s := by
  have h' : (match chiralDiag sym n charge bits with
    | .error e => .error e
    | .ok d => .ok ((Matrix.of fun i k => (d k : ℂ) * sᴴ i k : CMat n) * s) : Except CErr (CMat n)) = .ok S := by
    rcases hc with rfl | rfl | rfl <;> exact h
  cases hd : chiralDiag sym n charge bits with
  | error e => rw [hd] at h'; cases h'
  | ok d =>
    rw [hd] at h'
    exact ⟨d, rfl, by rw [← Except.ok.inj h', chir_eq]⟩

/-- **C98**: for every draw, `circular` returns a unitary matrix with all documented symmetries of its class. -/
theorem C98_circular {qr : CMat n → CMat n × CMat n} {sym : Cls} {charge : Option ℤ} {r1 r2 : Matrix (Fin n) (Fin n) ℝ} {bits : ℕ → Bool} {S : CMat n}
    (hqr : QROk (cDraw sym r1 r2) (qr (cDraw sym r1 r2)).1 (qr (cDraw sym r1 r2)).2) (h : circular qr sym charge r1 r2 bits = .ok S) :
    InCircular sym S := by
  obtain ⟨_, s, -, -, -, hu, hreal, hsp, hdim, hsym⟩ := circular_group hqr h
  have tc : cc sᵀ = sᴴ := (herm_eq_transpose_cc s).symm
  have hc : cc sᴴ = sᵀ := by rw [← tc, cc_cc]
  have ct : (cc s)ᵀ = sᴴ := cc_transpose s
  have hcc : ∀ a : CMat n, aᴴ = (cc a)ᵀ := fun a => (cc_transpose a).symm
  have sp1 : pSq sym = -1 → cc s = tauY n * s * tauY n := fun hp => by
    have hn := hdim (Or.inr hp)
    have e := hsp hp
    calc cc s = tauY n * (tauY n * cc s * tauY n) * tauY n := by
          rw [mul_assoc (tauY n) (cc s), tauY_neg_mul hn, neg_mul_tauY hn]
      _ = tauY n * s * tauY n := by rw [← e]
  have sp2 : pSq sym = -1 → sᴴ = tauY n * sᵀ * tauY n := fun hp => by
    have hn := hdim (Or.inr hp)
    rw [← ct, sp1 hp, transpose_mul, transpose_mul, tauY_transpose hn, mul_neg, neg_mul_neg, ← mul_assoc]
  cases sym with
  | A =>
    obtain rfl := Except.ok.inj hsym
    exact ⟨hu, trivial, trivial, trivial⟩
  | D =>
    obtain rfl := Except.ok.inj hsym
    exact ⟨hu, trivial, (hreal rfl).symm, trivial⟩
  | C =>
    obtain rfl := Except.ok.inj hsym
    exact ⟨hu, trivial, hsp rfl, trivial⟩
  | AI =>
    obtain rfl := Except.ok.inj hsym
    refine ⟨uni_mul (uni_transpose hu) hu, ?_, trivial, trivial⟩
    show _ = _
    rw [transpose_mul, transpose_transpose]
  | CI =>
    have hn := hdim (Or.inr rfl)
    have hS : S = sᵀ * s * tauY n := by rw [← Except.ok.inj hsym, ← ci_eq hn]
    have hSt : Sᵀ = -(tauY n * (sᵀ * s)) := by
      rw [hS, transpose_mul, transpose_mul, transpose_transpose, tauY_transpose hn, neg_mul]
    have hSc : cc S = -(tauY n * (sᵀ * s)) := by
      rw [hS, cc_mul, cc_mul, tauY_conj hn, tc, sp2 rfl, sp1 rfl, mul_neg]
      congr 1
      calc tauY n * sᵀ * tauY n * (tauY n * s * tauY n) * tauY n = tauY n * sᵀ * (tauY n * tauY n) * s * (tauY n * tauY n) := by
            simp only [mul_assoc]
        _ = _ := by rw [tauY_sq hn, mul_one, mul_one, mul_assoc]
    have key : -(tauY n * -(tauY n * (sᵀ * s)) * tauY n) = S := by
      rw [mul_neg, tauY_neg_mul hn, neg_mul, neg_neg, hS]
    refine ⟨?_, ?_, ?_, ?_⟩
    · rw [hS]; exact uni_mul (uni_mul (uni_transpose hu) hu) (tauY_uni hn)
    · show S = -(tauY n * Sᵀ * tauY n)
      rw [hSt, key]
    · show S = -(tauY n * cc S * tauY n)
      rw [hSc, key]
    · show S = Sᴴ
      rw [hcc, hSc, transpose_neg, transpose_mul, transpose_mul, transpose_transpose, tauY_transpose hn, mul_neg, neg_neg, hS]
  | AII =>
    have hn := hdim (Or.inl rfl)
    have hS : S = -(sᵀ * tauY n * s) := by rw [← Except.ok.inj hsym, aii_eq hn]
    refine ⟨?_, ?_, trivial, trivial⟩
    · rw [hS]; exact uni_neg (uni_mul (uni_mul (uni_transpose hu) (tauY_uni hn)) hu)
    · show S = -Sᵀ
      rw [hS, transpose_neg, transpose_mul, transpose_mul, transpose_transpose, tauY_transpose hn, neg_mul, mul_neg, neg_neg, mul_assoc]
  | DIII =>
    have hn := hdim (Or.inl rfl)
    have hS : S = -(sᵀ * tauY n * s) := by rw [← Except.ok.inj hsym, aii_eq hn]
    have hr : cc s = s := hreal rfl
    have hSt : S = -Sᵀ := by
      rw [hS, transpose_neg, transpose_mul, transpose_mul, transpose_transpose, tauY_transpose hn, neg_mul, mul_neg, neg_neg, mul_assoc]
    have hrt : cc sᵀ = sᵀ := by rw [tc, ← ct, hr]
    have hSc : -S = cc S := by
      rw [hS, cc_neg, cc_mul, cc_mul, tauY_conj hn, hr, hrt, mul_neg, neg_mul]
    refine ⟨?_, hSt, hSc, ?_⟩
    · rw [hS]; exact uni_neg (uni_mul (uni_mul (uni_transpose hu) (tauY_uni hn)) hu)
    · show S = Sᴴ
      rw [hcc, ← hSc, transpose_neg]
      exact hSt
  | AIII =>
    obtain ⟨d, hd, rfl⟩ := symmetrize_chiral (Or.inl rfl) hsym
    obtain ⟨h1, h2⟩ := chiral_ok hu (chiralDiag_ok hd).1
    exact ⟨h1, trivial, trivial, h2⟩
  | BDI =>
    obtain ⟨d, hd, hS⟩ := symmetrize_chiral (Or.inr (Or.inl rfl)) hsym
    obtain ⟨h1, h2⟩ := chiral_ok hu (chiralDiag_ok hd).1
    rw [← hS] at h1 h2
    have hr : cc s = s := hreal rfl
    have hSc : S = cc S := by
      rw [hS, cc_mul, cc_mul, signs_cc, hc, hr, ← ct, hr]
    refine ⟨h1, ?_, hSc, h2⟩
    show S = Sᵀ
    calc S = Sᴴ := h2
      _ = (cc S)ᵀ := hcc S
      _ = Sᵀ := by rw [← hSc]
  | CII =>
    have hn := hdim (Or.inr rfl)
    obtain ⟨d, hd, hS⟩ := symmetrize_chiral (Or.inr (Or.inr rfl)) hsym
    obtain ⟨h1, h2⟩ := chiral_ok hu (chiralDiag_ok hd).1
    rw [← hS] at h1 h2
    have hcomm := signs_comm hn ((chiralDiag_ok hd).2 rfl hn)
    have hSc : S = tauY n * cc S * tauY n := by
      have e := hsp rfl
      rw [hS, cc_mul, cc_mul, signs_cc, hc]
      calc sᴴ * diagonal (fun i => (d i : ℂ)) * s = (tauY n * sᵀ * tauY n) * diagonal (fun i => (d i : ℂ)) * (tauY n * cc s * tauY n) := by
            rw [← sp2 rfl, ← e]
        _ = tauY n * sᵀ * (tauY n * diagonal (fun i => (d i : ℂ))) * tauY n * cc s * tauY n := by simp only [mul_assoc]
        _ = tauY n * sᵀ * diagonal (fun i => (d i : ℂ)) * (tauY n * tauY n) * cc s * tauY n := by rw [← hcomm]; simp only [mul_assoc]
        _ = _ := by rw [tauY_sq hn, mul_one]; simp only [mul_assoc]
    have hT : Sᵀ = cc S := by
      have := congrArg Matrix.transpose h2
      rw [hcc, transpose_transpose] at this
      exact this
    refine ⟨h1, ?_, hSc, h2⟩
    show S = tauY n * Sᵀ * tauY n
    rw [hT]; exact hSc

/-- The trace in the chiral classes. -/
theorem chiral_trace {s : CMat n} {d : Fin n → ℝ} (hu : sᴴ * s = 1) : (sᴴ * diagonal (fun i => (d i : ℂ)) * s).trace = ((∑ i, d i : ℝ) : ℂ) := by
  rw [trace_mul_comm, ← mul_assoc, mul_eq_one_comm.mp hu, one_mul, trace_diagonal]
  push_cast; rfl

theorem sum_signs (m : ℕ) (hm : m ≤ n) : ∑ i : Fin n, (if (i.val : ℤ) < (m : ℤ) then (-1 : ℝ) else 1) = n - 2 * m := by
  rw [Fin.sum_univ_eq_sum_range (fun i => if (i : ℤ) < (m : ℤ) then (-1 : ℝ) else 1) n]
  obtain ⟨k, rfl⟩ := Nat.exists_eq_add_of_le hm
  rw [Finset.sum_range_add, Finset.sum_congr rfl (g := fun _ => (-1 : ℝ)) (fun i hi => if_pos (by exact_mod_cast Finset.mem_range.mp hi)),
    Finset.sum_congr rfl (g := fun _ => (1 : ℝ)) (fun i _ => if_neg (by push_cast; omega))]
  simp
  ring

/-- **C98**, the charge: in class D the determinant is the charge; in the classes AIII, BDI and CII the charge (twice the charge) is the number of
eigenvalues -1 of the Hermitian unitary result, so the trace is `n - 2 charge` (`n - 4 charge`). -/
theorem C98_charge {qr : CMat n → CMat n × CMat n} {sym : Cls} {c : ℤ} {r1 r2 : Matrix (Fin n) (Fin n) ℝ} {bits : ℕ → Bool} {S : CMat n}
    (hqr : QROk (cDraw sym r1 r2) (qr (cDraw sym r1 r2)).1 (qr (cDraw sym r1 r2)).2) (h : circular qr sym (some c) r1 r2 bits = .ok S) :
    (sym = .D → S.det = c) ∧ (sym = .AIII ∨ sym = .BDI → S.trace = n - 2 * c) ∧ (sym = .CII → S.trace = n - 4 * c) := by
  obtain ⟨s0, s, hf, hu0, hr0, hu, hreal, hsp, hdim, hsym⟩ := circular_group hqr h
  refine ⟨?_, ?_, ?_⟩
  · rintro rfl
    obtain rfl := Except.ok.inj hsym
    have hreal' : ∀ t : CMat n, tᴴ * t = 1 → cc t = t → (t.det = 1 ∨ t.det = -1) := by
      intro t h1 h2
      have e1 : starRingEnd ℂ t.det = t.det := by
        rw [RingHom.map_det]
        exact congrArg Matrix.det h2
      have e2 := congrArg Matrix.det h1
      rw [det_mul, det_conjTranspose, det_one] at e2
      have e3 : t.det * t.det = 1 := by rw [← e2]; congr 1; exact e1.symm
      exact mul_self_eq_one_iff.mp e3
    have hf' : fixChargeSome .D c s0 = .ok s := hf
    unfold fixChargeSome at hf'
    by_cases hc : c ≠ -1 ∧ c ≠ 1
    · rw [if_pos hc] at hf'; cases hf'
    · rw [if_neg hc] at hf'
      have hcd : chargeDet .D s0 = s0.det.re := by unfold chargeDet; rw [if_neg (by decide)]
      have hcc : c = -1 ∨ c = 1 := by omega
      by_cases hfl : flipNeeded .D c s0
      · rw [if_pos hfl] at hf'
        by_cases hn : n < 2
        · rw [if_pos hn] at hf'; cases hf'
        · rw [if_neg hn] at hf'
          obtain rfl := Except.ok.inj hf'
          rw [swapLast_det (by omega)]
          unfold flipNeeded at hfl
          rw [hcd] at hfl
          rcases hcc with rfl | rfl <;> rcases hreal' s0 hu0 (hr0 rfl) with e | e <;> rw [e] at hfl ⊢ <;> first | (exfalso; revert hfl; norm_num; done) | norm_num
      · rw [if_neg hfl] at hf'
        obtain rfl := Except.ok.inj hf'
        unfold flipNeeded at hfl
        rw [hcd] at hfl
        rcases hcc with rfl | rfl <;> rcases hreal' s0 hu0 (hr0 rfl) with e | e <;> rw [e] at hfl ⊢ <;> first | (exfalso; revert hfl; norm_num; done) | norm_num
  · intro hs
    obtain ⟨d, hd, rfl⟩ := symmetrize_chiral (by tauto) hsym
    rw [chiral_trace hu]
    unfold chiralDiag at hd
    rw [if_pos (by rcases hs with rfl | rfl <;> decide)] at hd
    simp only at hd
    split at hd
    · next hc =>
      obtain rfl := Except.ok.inj hd
      obtain ⟨m, rfl⟩ := Int.eq_ofNat_of_zero_le hc.1
      have := sum_signs (n := n) m (by exact_mod_cast hc.2)
      rw [this]; push_cast; rfl
    · cases hd
  · rintro rfl
    have hn := hdim (Or.inr rfl)
    obtain ⟨d, hd, rfl⟩ := symmetrize_chiral (by tauto) hsym
    rw [chiral_trace hu]
    unfold chiralDiag at hd
    rw [if_neg (by decide)] at hd
    simp only at hd
    split at hd
    · next hc =>
      obtain rfl := Except.ok.inj hd
      obtain ⟨m, rfl⟩ := Int.eq_ofNat_of_zero_le hc.1
      have := sum_signs (n := n) (m * 2) (by have := hc.2; omega)
      have e : ((m : ℤ) * 2) = ((m * 2 : ℕ) : ℤ) := by push_cast; rfl
      rw [e, this]; push_cast; ring
    · cases hd

/-- The partner of an index. -/
theorem block_eq (hn : 2 ∣ n) (i k : Fin n) (h : k.val / 2 = i.val / 2) : k = i ∨ k = idx i := by
  have hv := idx_val hn i
  by_cases e : k.val = i.val
  · exact Or.inl (Fin.ext e)
  · right
    apply Fin.ext
    split at hv <;> omega

theorem block_sum (hn : 2 ∣ n) {f : Fin n → ℂ} (i : Fin n) (h : ∀ k : Fin n, k.val / 2 ≠ i.val / 2 → f k = 0) : ∑ k, f k = f i + f (idx i) := by
  have hne : i ≠ idx i := by
    intro e
    have hv := idx_val hn i
    have := congrArg Fin.val e
    split at hv <;> omega
  rw [← Finset.sum_pair hne]
  refine (Finset.sum_subset (Finset.subset_univ _) fun k _ hk => h k fun e => hk ?_).symm
  rcases block_eq hn i k e with rfl | rfl <;> simp

/-- The check of l.239 never fails: for a quaternion-real matrix the triangular factor has zeros on the even places of the first superdiagonal.  This is
the "reason as yet unknown" of the documentation (rmt.py l.211-212). -/
theorem superZero_of_symplectic {h q r : CMat n} (hn : 2 ∣ n) (hq : QROk h q r) (hh : tauY n * cc h * tauY n = h) : superZero r := by
  set s := fixPhases q r with hsdef
  set R := fixR r with hRdef
  have hu : sᴴ * s = 1 := fixPhases_unitary hq
  have hmul : s * R = h := fix_mul hq
  set R' := tauY n * cc R * tauY n with hR'def
  have hR' : R' = tw 1 tz idx R := tauY_cc hn _
  set s' := tauY n * cc s * tauY n with hs'def
  have hu' : s'ᴴ * s' = 1 := by
    refine uni_mul (uni_mul (tauY_uni hn) ?_) (tauY_uni hn)
    have := congrArg cc hu
    rw [cc_mul, cc_one] at this
    rw [← this]
    congr 1
  have hmul' : s' * R' = h := by
    rw [← hh, ← hmul, cc_mul, hs'def, hR'def]
    calc tauY n * cc s * tauY n * (tauY n * cc R * tauY n) = tauY n * cc s * (tauY n * tauY n) * cc R * tauY n := by simp only [mul_assoc]
      _ = _ := by rw [tauY_sq hn, mul_one]; simp only [mul_assoc]
  have tri : ∀ i j : Fin n, j < i → R i j = 0 := fun i j hij => by
    show starRingEnd ℂ (phase r i) * r i j = 0
    rw [hq.upper i j hij, mul_zero]
  let b : Fin n → ℕ := fun i => i.val / 2
  have bR : BlockTriangular R b := fun i j hij => tri i j (by
    have : j.val / 2 < i.val / 2 := hij
    exact Fin.lt_def.mpr (by omega))
  have bi : ∀ i : Fin n, (idx i).val / 2 = i.val / 2 := fun i => by
    have hv := idx_val hn i
    split at hv <;> omega
  have bR' : BlockTriangular R' b := fun i j hij => by
    have : R (idx i) (idx j) = 0 := bR (by show (idx j).val / 2 < (idx i).val / 2; rw [bi, bi]; exact hij)
    rw [hR']
    simp only [tw, this, map_zero, mul_zero, zero_mul]
  have btri : BlockTriangular R id := fun i j hij => tri i j hij
  have hdet : IsUnit R.det := by
    rw [det_of_upperTriangular btri]
    refine IsUnit.mk0 _ (Finset.prod_ne_zero_iff.mpr fun i _ => ?_)
    obtain ⟨x, hx, e⟩ := fixR_diag hq i
    rw [hRdef, e]
    exact_mod_cast hx.ne'
  have hinv : Invertible R := R.invertibleOfIsUnitDet hdet
  set u := s'ᴴ * s with hudef
  have hv' : s' * s'ᴴ = 1 := mul_eq_one_comm.mp hu'
  have hur : u * R = R' := by rw [hudef, mul_assoc, hmul, ← hmul', ← mul_assoc, hu', one_mul]
  have huu : uᴴ * u = 1 := by
    rw [hudef, conjTranspose_mul, conjTranspose_conjTranspose, mul_assoc, ← mul_assoc s', hv', one_mul, hu]
  have bu : BlockTriangular u b := by
    have : u = R' * R⁻¹ := by rw [← hur, mul_assoc, mul_nonsing_inv R hdet, mul_one]
    rw [this]
    exact bR'.mul (blockTriangular_inv_of_blockTriangular bR)
  have hinvu : Invertible u := u.invertibleOfIsUnitDet (by
    rw [isUnit_iff_exists_inv]
    exact ⟨uᴴ.det, by rw [← det_mul, mul_eq_one_comm.mp huu, det_one]⟩)
  have bu' : BlockTriangular uᴴ b := by
    have : uᴴ = u⁻¹ := (inv_eq_left_inv huu).symm
    rw [this]
    exact blockTriangular_inv_of_blockTriangular bu
  have hz : ∀ i k : Fin n, k.val / 2 ≠ i.val / 2 → u i k = 0 := by
    intro i k hk
    rcases lt_or_gt_of_ne hk with hlt | hgt
    · exact bu hlt
    · have := bu' (show b i < b k from hgt)
      rw [conjTranspose_apply] at this
      exact star_eq_zero.mp this
  intro i j hi hj
  have hv := idx_val hn i
  have hij : j = idx i := by
    apply Fin.ext
    rw [hv, if_pos hi, hj]
  have hji : idx j = i := by rw [hij, idx_idx hn]
  have hlt : i < j := Fin.lt_def.mpr (by omega)
  -- the entries of the block
  have e00 : R' i i = u i i * R i i := by
    rw [← hur, mul_apply, block_sum hn i (fun k hk => by rw [hz i k hk, zero_mul]), ← hij, tri j i hlt, mul_zero, add_zero]
  have e10 : R' j i = u j i * R i i := by
    rw [← hur, mul_apply, block_sum hn i (fun k hk => by rw [hz j k (by omega), zero_mul]), ← hij, tri j i hlt, mul_zero, add_zero]
  have e01 : R' i j = u i i * R i j + u i j * R j j := by
    rw [← hur, mul_apply, block_sum hn i (fun k hk => by rw [hz i k hk, zero_mul]), ← hij]
  have e11 : R' j j = u j i * R i j + u j j * R j j := by
    rw [← hur, mul_apply, block_sum hn i (fun k hk => by rw [hz j k (by omega), zero_mul]), ← hij]
  have uu : ∀ c : Fin n, starRingEnd ℂ (u i i) * u i c + starRingEnd ℂ (u j i) * u j c = (1 : CMat n) i c := by
    intro c
    rw [← huu, mul_apply, block_sum hn i (fun k hk => by
      rw [conjTranspose_apply, hz k i (fun e => hk e.symm), star_zero, zero_mul]), ← hij]
    rfl
  have u1 := uu i
  have u2 := uu j
  rw [one_apply_eq] at u1
  rw [one_apply_ne (ne_of_lt hlt)] at u2
  -- the twisted block
  have f : ∀ a c : Fin n, R' a c = (tz a : ℂ) * starRingEnd ℂ (R (idx a) (idx c)) * (tz c : ℂ) := fun a c => by
    rw [hR']; simp only [tw, ofReal_one, one_mul]
  have zi : tz i = 1 := by unfold tz; rw [if_pos hi]
  have zj : tz j = -1 := by unfold tz; rw [if_neg (by omega)]
  obtain ⟨x, hx, ex⟩ := fixR_diag hq i
  obtain ⟨y, hy, ey⟩ := fixR_diag hq j
  have g01 : R' i j = 0 := by rw [f, ← hij, hji, tri j i hlt, map_zero, mul_zero, zero_mul]
  have g10 : R' j i = -starRingEnd ℂ (R i j) := by rw [f, ← hij, hji, zi, zj]; push_cast; ring
  have g11 : R' j j = x := by rw [f, hji, show R i i = (x : ℂ) from ex, zj]; push_cast; simp
  have hRi : R i i = x := ex
  have key : starRingEnd ℂ (R' i i) * R' i j + starRingEnd ℂ (R' j i) * R' j j = x * R i j := by
    rw [e00, e10, e01, e11, hRi]
    simp only [map_mul, conj_ofReal]
    linear_combination (x : ℂ) * R i j * u1 + (x : ℂ) * R j j * u2
  rw [g01, g10, g11] at key
  simp only [mul_zero, zero_add, map_neg, Complex.conj_conj] at key
  have hx0 : (x : ℂ) ≠ 0 := by exact_mod_cast hx.ne'
  have hR0 : R i j = 0 := by
    have : (2 * (x : ℂ)) * R i j = 0 := by linear_combination -key
    rcases mul_eq_zero.mp this with h | h
    · exact absurd h (mul_ne_zero two_ne_zero hx0)
    · exact h
  have : starRingEnd ℂ (phase r i) * r i j = 0 := hR0
  rcases mul_eq_zero.mp this with h | h
  · exfalso
    have hp := phase_conj (hq.diag i)
    rw [h, zero_mul] at hp
    exact zero_ne_one hp
  · exact h

/-- The documented restrictions of the parameters (rmt.py l.171-181). -/
def ValidParams (n : ℕ) (sym : Cls) (charge : Option ℤ) : Prop :=
  (sym ∈ [.C, .CI, .CII, .AII, .DIII] → n % 2 = 0) ∧
  ∀ c, charge = some c →
    (sym ∈ [.D, .DIII] → c = 1 ∨ c = -1) ∧ (sym ∈ [.AIII, .BDI] → 0 ≤ c ∧ c ≤ n) ∧ (sym = .CII → 0 ≤ c ∧ c ≤ n / 2)

theorem fixCharge_returns {sym : Cls} {charge : Option ℤ} {s : CMat n} (hn : 2 ≤ n)
    (h : ∀ c, charge = some c → sym = .D ∨ sym = .DIII → c = 1 ∨ c = -1) : ∃ s', fixCharge sym charge s = .ok s' := by
  unfold fixCharge
  split
  · next hs =>
    cases charge with
    | none => exact ⟨_, rfl⟩
    | some c =>
      show ∃ s', fixChargeSome sym c s = .ok s'
      unfold fixChargeSome
      rw [if_neg (by have := h c rfl hs; omega)]
      split
      · rw [if_neg (by omega)]; exact ⟨_, rfl⟩
      · exact ⟨_, rfl⟩
  · exact ⟨_, rfl⟩

theorem chiralDiag_returns {sym : Cls} {charge : Option ℤ} {bits : ℕ → Bool}
    (h : ∀ c, charge = some c → (sym ≠ .CII → 0 ≤ c ∧ c ≤ n) ∧ (sym = .CII → 0 ≤ c ∧ c ≤ ((n / 2 : ℕ) : ℤ))) : ∃ d, chiralDiag sym n charge bits = .ok d := by
  unfold chiralDiag
  by_cases hs : sym ≠ .CII
  · rw [if_pos hs]
    cases charge with
    | none => exact ⟨_, rfl⟩
    | some c => simp only; rw [if_pos ((h c rfl).1 hs)]; exact ⟨_, rfl⟩
  · rw [if_neg hs]
    cases charge with
    | none => exact ⟨_, rfl⟩
    | some c => simp only; rw [if_pos ((h c rfl).2 (by tauto))]; exact ⟨_, rfl⟩

/-- **C98**: for all documented parameters with at least two channels, every draw for which the QR decomposition exists gives a result; in particular the
"QR decomposition symmetry failure" never happens. -/
theorem C98_returns {qr : CMat n → CMat n × CMat n} {sym : Cls} {charge : Option ℤ} {r1 r2 : Matrix (Fin n) (Fin n) ℝ} {bits : ℕ → Bool}
    (hqr : QROk (cDraw sym r1 r2) (qr (cDraw sym r1 r2)).1 (qr (cDraw sym r1 r2)).2) (hn : 2 ≤ n) (hv : ValidParams n sym charge) :
    ∃ S, circular qr sym charge r1 r2 bits = .ok S := by
  have hodd : ¬ ((tSq sym = -1 ∨ pSq sym = -1) ∧ n % 2 ≠ 0) := by
    rintro ⟨h1, h2⟩
    exact h2 (hv.1 (by revert h1; cases sym <;> decide))
  unfold circular
  rw [if_neg hodd]
  simp only
  rw [if_neg (by
    rintro ⟨hp, hs⟩
    have h2 : 2 ∣ n := by
      by_contra hc
      exact hodd ⟨Or.inr hp, by omega⟩
    exact hs (superZero_of_symplectic h2 hqr (cDraw_symplectic h2 hp r1 r2)))]
  obtain ⟨s, hs⟩ := fixCharge_returns (sym := sym) (charge := charge) (s := fixPhases (qr (cDraw sym r1 r2)).1 (qr (cDraw sym r1 r2)).2) hn
    (fun c hc hsym => (hv.2 c hc).1 (by rcases hsym with rfl | rfl <;> decide))
  rw [hs]
  simp only
  have hch : sym = .AIII ∨ sym = .BDI ∨ sym = .CII → ∃ d, chiralDiag sym n charge bits = .ok d := fun hsym =>
    chiralDiag_returns fun c hc => ⟨fun h => (hv.2 c hc).2.1 (by rcases hsym with rfl | rfl | rfl <;> first | decide | exact absurd rfl h),
      fun h => by have := (hv.2 c hc).2.2 h; push_cast; exact this⟩
  cases sym <;> first
    | exact ⟨_, rfl⟩
    | (obtain ⟨d, hd⟩ := hch (by decide)
       refine ⟨(Matrix.of fun i k => (d k : ℂ) * sᴴ i k : CMat n) * s, ?_⟩
       show (match chiralDiag _ n charge bits with
          | .error e => .error e
          | .ok d => .ok ((Matrix.of fun i k => (d k : ℂ) * sᴴ i k : CMat n) * s) : Except CErr (CMat n)) = _
       rw [hd])

/-- A draw and a QR decomposition that meet the hypotheses: the draw is the identity, so are both factors. -/
example : QROk (cDraw (n := 2) .D 1 0) 1 1 := by
  have e : cDraw (n := 2) .D 1 0 = 1 := by
    unfold cDraw
    rw [if_pos (show pSq .D = 1 from rfl)]
    ext i j
    unfold drawReal
    rw [one_apply, one_apply]
    split <;> simp
  rw [e]
  exact ⟨by rw [conjTranspose_one, one_mul], fun i j h => one_apply_ne (ne_of_gt h), one_mul _, fun i => by rw [one_apply_eq]; exact one_ne_zero,
    fun _ => ⟨cc_one, cc_one⟩⟩

example : ValidParams 2 .D (some (-1)) ∧ ValidParams 4 .CII (some 1) ∧ ValidParams 3 .BDI (some 2) := by
  refine ⟨⟨by decide, fun c hc => ?_⟩, ⟨by decide, fun c hc => ?_⟩, ⟨by decide, fun c hc => ?_⟩⟩ <;> obtain rfl := Option.some.inj hc <;> simp

end Kwant.Rmt
