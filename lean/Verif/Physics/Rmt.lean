import Mathlib.LinearAlgebra.Matrix.ConjTranspose
import Mathlib.LinearAlgebra.Matrix.Notation
import Mathlib.Analysis.Complex.Basic
import Mathlib.Analysis.Real.Sqrt

/-!
C61: kwant/rmt.py, `gaussian`.

Simplifications: exact real arithmetic; the arrays returned by `randn` are arbitrary real matrices; `ensure_rng` is not modelled; an
unknown symmetry class (`ValueError`) is not representable.
-/

set_option linter.unusedSectionVars false

namespace Kwant.Rmt
open Matrix Complex

/-- `sym_list` (rmt.py l.16) -/
inductive Cls where
  | A | AI | AII | AIII | BDI | CII | D | DIII | C | CI
  deriving DecidableEq

/-- `t` (rmt.py l.19-28) -/
def tSq : Cls → ℤ
  | .CI | .AI | .BDI => 1
  | .CII | .AII | .DIII => -1
  | _ => 0

/-- `p` (rmt.py l.31-40) -/
def pSq : Cls → ℤ
  | .D | .DIII | .BDI => 1
  | .C | .CI | .CII => -1
  | _ => 0

/-- `c` (rmt.py l.43-48) -/
def chir (s : Cls) : Bool := (tSq s ≠ 0 ∧ pSq s ≠ 0) ∨ s = .AIII

/-- The two `ValueError`s (rmt.py l.112-123). -/
inductive RErr where
  | odd | notMultipleOfFour
  deriving DecidableEq

variable {n : ℕ}

/-- `tau_z = (n // 2) * [1, -1]` (rmt.py l.117) -/
def tz (i : Fin n) : ℝ := if i.val % 2 = 0 then 1 else -1

/-- `idx_x = np.arange(n) + tau_z` (rmt.py l.118): inside of the array, because n is even. -/
def idx (i : Fin n) : Fin n :=
  if i.val % 2 = 0 then (if h : i.val + 1 < n then ⟨i.val + 1, h⟩ else i) else ⟨i.val - 1, by omega⟩

/-- `sigma_z = (n // 4) * [1, 1, -1, -1]` (rmt.py l.155) -/
def sz (i : Fin n) : ℝ := if i.val % 4 < 2 then 1 else -1

/-- `idx_sigma_x = np.arange(n) + 2 * sigma_z` (rmt.py l.156): inside of the array, because n is a multiple of 4. -/
def idxS (i : Fin n) : Fin n :=
  if i.val % 4 < 2 then (if h : i.val + 2 < n then ⟨i.val + 2, h⟩ else i) else ⟨i.val - 2, by omega⟩

/-- The Gaussian matrix (rmt.py l.131-136). -/
noncomputable def draw (sym : Cls) (r1 r2 : Matrix (Fin n) (Fin n) ℝ) : Matrix (Fin n) (Fin n) ℂ := fun i j =>
  match sym with
  | .AI => (r1 i j : ℂ)
  | .D | .BDI => I * (r1 i j : ℂ)
  | _ => (r1 i j : ℂ) + I * (r2 i j : ℂ)

/-- `h -= tau_z.reshape(-1, 1) * h * tau_z` (rmt.py l.142-143) -/
noncomputable def chiralPart (h : Matrix (Fin n) (Fin n) ℂ) : Matrix (Fin n) (Fin n) ℂ := fun i j => h i j - (tz i : ℂ) * h i j * (tz j : ℂ)

/-- `z.reshape(-1, 1) * h[idx][:, idx].conj() * z` (rmt.py l.148, l.151, l.157-158) -/
noncomputable def twist (z : Fin n → ℝ) (ix : Fin n → Fin n) (h : Matrix (Fin n) (Fin n) ℂ) : Matrix (Fin n) (Fin n) ℂ := fun i j =>
  (z i : ℂ) * starRingEnd ℂ (h (ix i) (ix j)) * (z j : ℂ)

/-- The antiunitary symmetry (rmt.py l.147-159). -/
noncomputable def antiPart (sym : Cls) (h : Matrix (Fin n) (Fin n) ℂ) : Matrix (Fin n) (Fin n) ℂ :=
  match sym with
  | .AII | .DIII => h + twist tz idx h
  | .C | .CI => h - twist tz idx h
  | .CII => h + twist sz idxS h
  | _ => h

/-- The scale factor (rmt.py l.124, l.144, l.149, l.152, l.159). -/
noncomputable def factor (sym : Cls) (v : ℝ) : ℝ :=
  let f := v / √2
  let f := if chir sym then f * 0.5 else f
  match sym with
  | .AII | .DIII | .C | .CI | .CII => f / √2
  | _ => f

/-- `gaussian(n, sym, v, rng)` (rmt.py l.64-163) -/
noncomputable def gaussian (sym : Cls) (v : ℝ) (r1 r2 : Matrix (Fin n) (Fin n) ℝ) : Except RErr (Matrix (Fin n) (Fin n) ℂ) :=
  if (chir sym ∨ tSq sym = -1 ∨ pSq sym = -1) ∧ n % 2 ≠ 0 then .error .odd
  else if sym = .CII ∧ n % 4 ≠ 0 then .error .notMultipleOfFour
  else
    let h := draw sym r1 r2
    let h := h + hᴴ
    let h := if chir sym then chiralPart h else h
    .ok ((factor sym v : ℂ) • antiPart sym h)

/-! ### Specification: the relations of the documentation, with Kronecker products -/

/-- `np.kron(identity(n // k), m)`: "matrix indices are grouped first according to orbital number, then sigma-index, then tau-index". -/
def kron (n k : ℕ) [NeZero k] (m : Matrix (Fin k) (Fin k) ℂ) : Matrix (Fin n) (Fin n) ℂ := fun i j =>
  if i.val / k = j.val / k then m (Fin.ofNat k i.val) (Fin.ofNat k j.val) else 0

/-- Pauli matrices of the fastest index (called tau, or sigma in class AII, where there is no tau). -/
def tauX (n : ℕ) : Matrix (Fin n) (Fin n) ℂ := kron n 2 !![0, 1; 1, 0]
def tauY (n : ℕ) : Matrix (Fin n) (Fin n) ℂ := kron n 2 !![0, -I; I, 0]
def tauZ (n : ℕ) : Matrix (Fin n) (Fin n) ℂ := kron n 2 !![1, 0; 0, -1]
/-- sigma_y ⊗ 1 of class CII. -/
def sigmaY (n : ℕ) : Matrix (Fin n) (Fin n) ℂ := kron n 4 !![0, 0, -I, 0; 0, 0, 0, -I; I, 0, 0, 0; 0, I, 0, 0]

/-- Entrywise complex conjugate. -/
def cc (h : Matrix (Fin n) (Fin n) ℂ) : Matrix (Fin n) (Fin n) ℂ := h.map (starRingEnd ℂ)

/-- Time reversal (rmt.py l.93-98). -/
def TimeRel (sym : Cls) (H : Matrix (Fin n) (Fin n) ℂ) : Prop :=
  match sym with
  | .AI => H = cc H
  | .BDI => H = tauZ n * cc H * tauZ n
  | .CI => H = tauX n * cc H * tauX n
  | .AII => H = tauY n * cc H * tauY n
  | .CII => H = sigmaY n * cc H * sigmaY n
  | .DIII => H = tauY n * cc H * tauY n
  | _ => True

/-- Particle-hole symmetry (rmt.py l.99-103). -/
def ParticleRel (sym : Cls) (H : Matrix (Fin n) (Fin n) ℂ) : Prop :=
  match sym with
  | .C | .CI => H = -(tauY n * cc H * tauY n)
  | .CII => H = -(tauZ n * sigmaY n * cc H * (tauZ n * sigmaY n))
  | .D | .BDI => H = -cc H
  | .DIII => H = -(tauX n * cc H * tauX n)
  | _ => True

/-- Chiral symmetry "always reads H = -tau_z H tau_z" in the classes that have it (rmt.py l.91-92). -/
def ChiralRel (sym : Cls) (H : Matrix (Fin n) (Fin n) ℂ) : Prop :=
  match sym with
  | .AIII | .BDI | .CII | .DIII | .CI => H = -(tauZ n * H * tauZ n)
  | _ => True

/-- The documented requirement on the dimension (rmt.py l.70-71). -/
def GoodDim (sym : Cls) (n : ℕ) : Prop :=
  match sym with
  | .A | .D | .AI => True
  | .CII => 4 ∣ n
  | _ => 2 ∣ n

/-- All relations of a symmetry class. -/
structure InClass (sym : Cls) (H : Matrix (Fin n) (Fin n) ℂ) : Prop where
  herm : Hᴴ = H
  time : TimeRel sym H
  particle : ParticleRel sym H
  chiral : ChiralRel sym H

/-! ### Matrices with one entry per row -/

/-- The matrix with entry `u i` in row `i` and column `π i`. -/
def mono (u : Fin n → ℂ) (π : Fin n → Fin n) : Matrix (Fin n) (Fin n) ℂ := fun i j => if j = π i then u i else 0

theorem mono_mul (u : Fin n → ℂ) (π : Fin n → Fin n) (X : Matrix (Fin n) (Fin n) ℂ) (i j : Fin n) :
    (mono u π * X) i j = u i * X (π i) j := by
  rw [mul_apply]
  simp [mono]

theorem mul_mono (u : Fin n → ℂ) {π : Fin n → Fin n} (hπ : ∀ i, π (π i) = i) (X : Matrix (Fin n) (Fin n) ℂ) (i j : Fin n) :
    (X * mono u π) i j = X i (π j) * u (π j) := by
  rw [mul_apply, Finset.sum_eq_single (π j)]
  · simp [mono, hπ]
  · intro k _ hk
    have : j ≠ π k := fun h => hk (by rw [h, hπ])
    simp [mono, this]
  · intro h; exact absurd (Finset.mem_univ _) h

theorem mono_conj (u : Fin n → ℂ) {π : Fin n → Fin n} (hπ : ∀ i, π (π i) = i) (X : Matrix (Fin n) (Fin n) ℂ) (i j : Fin n) :
    (mono u π * X * mono u π) i j = u i * u (π j) * X (π i) (π j) := by
  rw [mul_mono u hπ, mono_mul]; ring

theorem idx_val (hn : 2 ∣ n) (i : Fin n) : (idx i).val = if i.val % 2 = 0 then i.val + 1 else i.val - 1 := by
  unfold idx
  split
  · rw [dif_pos (by omega)]
  · rfl

theorem idxS_val (hn : 4 ∣ n) (i : Fin n) : (idxS i).val = if i.val % 4 < 2 then i.val + 2 else i.val - 2 := by
  unfold idxS
  split
  · rw [dif_pos (by omega)]
  · rfl

theorem idx_idx (hn : 2 ∣ n) (i : Fin n) : idx (idx i) = i := by
  apply Fin.ext
  rw [idx_val hn, idx_val hn]
  split <;> (split <;> omega)

theorem idxS_idxS (hn : 4 ∣ n) (i : Fin n) : idxS (idxS i) = i := by
  apply Fin.ext
  rw [idxS_val hn, idxS_val hn]
  split <;> (split <;> omega)

theorem tz_idx (hn : 2 ∣ n) (i : Fin n) : tz (idx i) = -tz i := by
  unfold tz
  rw [idx_val hn]
  by_cases h : i.val % 2 = 0
  · rw [if_pos h, if_neg (by omega)]
    simp [h]
  · rw [if_neg h, if_pos (by omega)]
    simp [h]

theorem sz_idxS (hn : 4 ∣ n) (i : Fin n) : sz (idxS i) = -sz i := by
  unfold sz
  rw [idxS_val hn]
  by_cases h : i.val % 4 < 2
  · rw [if_pos h, if_neg (by omega)]
    simp [h]
  · rw [if_neg h, if_pos (by omega)]
    simp [h]

theorem tz_idxS (hn : 4 ∣ n) (i : Fin n) : tz (idxS i) = tz i := by
  unfold tz
  rw [idxS_val hn]
  by_cases h : i.val % 4 < 2
  · rw [if_pos h]
    simp only [show (i.val + 2) % 2 = i.val % 2 by omega]
  · rw [if_neg h]
    simp only [show (i.val - 2) % 2 = i.val % 2 by omega]

theorem tz_sq (i : Fin n) : tz i * tz i = 1 := by unfold tz; split <;> norm_num
theorem sz_sq (i : Fin n) : sz i * sz i = 1 := by unfold sz; split <;> norm_num

/-- A Kronecker product with a 2 × 2 matrix. -/
theorem kron2 (a b c d : ℂ) (i j : Fin n) : kron n 2 !![a, b; c, d] i j =
    if i.val / 2 = j.val / 2 then (if i.val % 2 = 0 then (if j.val % 2 = 0 then a else b) else (if j.val % 2 = 0 then c else d)) else 0 := by
  unfold kron
  split
  · have hi : Fin.ofNat 2 i.val = if i.val % 2 = 0 then 0 else 1 := by
      apply Fin.ext
      simp only [Fin.ofNat]
      split <;> simp <;> omega
    have hj : Fin.ofNat 2 j.val = if j.val % 2 = 0 then 0 else 1 := by
      apply Fin.ext
      simp only [Fin.ofNat]
      split <;> simp <;> omega
    rw [hi, hj]
    split <;> split <;> simp
  · rfl

theorem tauX_eq (hn : 2 ∣ n) : tauX n = mono (fun _ => 1) idx := by
  ext i j
  unfold tauX mono
  rw [kron2]
  simp only [Fin.ext_iff, idx_val hn]
  by_cases hi : i.val % 2 = 0 <;> by_cases hj : j.val % 2 = 0 <;> simp only [hi, hj, if_true, if_false] <;> split <;> split <;> first | rfl | omega

theorem tauZ_eq : tauZ n = mono (fun i => (tz i : ℂ)) id := by
  ext i j
  unfold tauZ mono tz
  rw [kron2]
  simp only [Fin.ext_iff, id]
  by_cases hi : i.val % 2 = 0 <;> by_cases hj : j.val % 2 = 0 <;> simp only [hi, hj, if_true, if_false] <;> split <;> split <;> first | (simp; done) | omega

theorem tauY_eq (hn : 2 ∣ n) : tauY n = mono (fun i => -I * (tz i : ℂ)) idx := by
  ext i j
  unfold tauY mono tz
  rw [kron2]
  simp only [Fin.ext_iff, idx_val hn]
  by_cases hi : i.val % 2 = 0 <;> by_cases hj : j.val % 2 = 0 <;> simp only [hi, hj, if_true, if_false] <;> split <;> split <;> first | (simp; done) | omega

theorem sigmaY_eq (hn : 4 ∣ n) : sigmaY n = mono (fun i => -I * (sz i : ℂ)) idxS := by
  ext i j
  unfold sigmaY mono sz kron
  simp only [Fin.ext_iff, idxS_val hn]
  have hi : i.val % 4 = 0 ∨ i.val % 4 = 1 ∨ i.val % 4 = 2 ∨ i.val % 4 = 3 := by omega
  have hj : j.val % 4 = 0 ∨ j.val % 4 = 1 ∨ j.val % 4 = 2 ∨ j.val % 4 = 3 := by omega
  have key : ∀ (k : ℕ) (r : Fin 4), k % 4 = r.val → Fin.ofNat 4 k = r := fun k r h => Fin.ext (by simpa [Fin.ofNat] using h)
  rcases hi with hi | hi | hi | hi <;> rcases hj with hj | hj | hj | hj <;>
    (first
      | rw [key i.val 0 hi] | rw [key i.val 1 hi] | rw [key i.val 2 hi] | rw [key i.val 3 hi]) <;>
    (first
      | rw [key j.val 0 hj] | rw [key j.val 1 hj] | rw [key j.val 2 hj] | rw [key j.val 3 hj]) <;>
    simp only [hi] <;> split <;> (try split) <;> (first | (simp; done) | (exfalso; omega) | (simp; omega))

/-! ### Involutions -/

/-- `X ↦ -τz X τz` -/
noncomputable def ch (X : Matrix (Fin n) (Fin n) ℂ) : Matrix (Fin n) (Fin n) ℂ := fun i j => -((tz i : ℂ) * X i j * (tz j : ℂ))

/-- `X ↦ s z X^*[ix][:, ix] z` -/
noncomputable def tw (s : ℝ) (z : Fin n → ℝ) (ix : Fin n → Fin n) (X : Matrix (Fin n) (Fin n) ℂ) : Matrix (Fin n) (Fin n) ℂ := fun i j =>
  (s : ℂ) * ((z i : ℂ) * starRingEnd ℂ (X (ix i) (ix j)) * (z j : ℂ))

theorem fix_self {A : Matrix (Fin n) (Fin n) ℂ → Matrix (Fin n) (Fin n) ℂ} (hadd : ∀ x y, A (x + y) = A x + A y) (hinv : ∀ x, A (A x) = x)
    (x : Matrix (Fin n) (Fin n) ℂ) : A (x + A x) = x + A x := by
  rw [hadd, hinv, add_comm]

theorem fix_comm {A B : Matrix (Fin n) (Fin n) ℂ → Matrix (Fin n) (Fin n) ℂ} (hadd : ∀ x y, A (x + y) = A x + A y) (hc : ∀ x, A (B x) = B (A x))
    {x : Matrix (Fin n) (Fin n) ℂ} (h : A x = x) : A (x + B x) = x + B x := by
  rw [hadd, hc, h]

theorem herm_add (x y : Matrix (Fin n) (Fin n) ℂ) : (x + y)ᴴ = xᴴ + yᴴ := conjTranspose_add x y

theorem ch_add (x y : Matrix (Fin n) (Fin n) ℂ) : ch (x + y) = ch x + ch y := by
  ext i j; simp only [ch, Matrix.add_apply]; ring

theorem tw_add (s : ℝ) (z : Fin n → ℝ) (ix : Fin n → Fin n) (x y : Matrix (Fin n) (Fin n) ℂ) : tw s z ix (x + y) = tw s z ix x + tw s z ix y := by
  ext i j; simp only [tw, Matrix.add_apply, map_add]; ring

theorem tzC_sq (i : Fin n) : (tz i : ℂ) * (tz i : ℂ) = 1 := by rw [← ofReal_mul, tz_sq, ofReal_one]
theorem szC_sq (i : Fin n) : (sz i : ℂ) * (sz i : ℂ) = 1 := by rw [← ofReal_mul, sz_sq, ofReal_one]

theorem ch_ch (x : Matrix (Fin n) (Fin n) ℂ) : ch (ch x) = x := by
  ext i j
  simp only [ch]
  linear_combination (x i j * (tz j : ℂ) * (tz j : ℂ)) * tzC_sq i + x i j * tzC_sq j

theorem tw_tw {s : ℝ} (hs : s * s = 1) {z : Fin n → ℝ} {ix : Fin n → Fin n} (hix : ∀ i, ix (ix i) = i) (hz : ∀ i j, z i * z (ix i) * (z j * z (ix j)) = 1)
    (x : Matrix (Fin n) (Fin n) ℂ) : tw s z ix (tw s z ix x) = x := by
  ext i j
  simp only [tw, hix, map_mul, conj_ofReal, Complex.conj_conj]
  have h1 : (s : ℂ) * s = 1 := by rw [← ofReal_mul, hs, ofReal_one]
  have h2 : (z i : ℂ) * z (ix i) * (z j * z (ix j)) = 1 := by exact_mod_cast hz i j
  linear_combination (x i j) * h2 + (x i j * ((z i : ℂ) * z (ix i) * (z j * z (ix j)))) * h1

theorem herm_ch (x : Matrix (Fin n) (Fin n) ℂ) : (ch x)ᴴ = ch xᴴ := by
  ext i j; simp [ch, conjTranspose_apply]; ring

theorem herm_tw (s : ℝ) (z : Fin n → ℝ) (ix : Fin n → Fin n) (x : Matrix (Fin n) (Fin n) ℂ) : (tw s z ix x)ᴴ = tw s z ix xᴴ := by
  ext i j; simp only [tw, conjTranspose_apply, star_mul', RCLike.star_def, conj_ofReal, Complex.conj_conj]; ring

theorem ch_tw (s : ℝ) (z : Fin n → ℝ) {ix : Fin n → Fin n} (h : ∀ i j, tz (ix i) * tz (ix j) = tz i * tz j) (x : Matrix (Fin n) (Fin n) ℂ) :
    ch (tw s z ix x) = tw s z ix (ch x) := by
  ext i j
  simp only [ch, tw, map_mul, map_neg, conj_ofReal]
  have h2 : (tz (ix i) : ℂ) * tz (ix j) = tz i * tz j := by exact_mod_cast h i j
  linear_combination (s : ℂ) * z i * z j * (starRingEnd ℂ) (x (ix i) (ix j)) * h2

theorem ch_tw' (s : ℝ) (z : Fin n → ℝ) (ix : Fin n → Fin n) (x : Matrix (Fin n) (Fin n) ℂ) :
    ch (tw s z ix x) = tw (-s) (fun i => tz i * z i) ix x := by
  ext i j
  simp only [ch, tw, ofReal_neg, ofReal_mul]
  ring

theorem tw_tz (s : ℝ) (ix : Fin n → Fin n) (x : Matrix (Fin n) (Fin n) ℂ) : tw s (fun i => tz i * tz i) ix x = tw s (fun _ => 1) ix x := by
  simp only [tz_sq]

/-- The relations of the documentation in terms of the involutions. -/
def TimeIdx (sym : Cls) (H : Matrix (Fin n) (Fin n) ℂ) : Prop :=
  match sym with
  | .AI => tw 1 (fun _ => 1) id H = H
  | .BDI => tw 1 tz id H = H
  | .CI => tw 1 (fun _ => 1) idx H = H
  | .AII | .DIII => tw 1 tz idx H = H
  | .CII => tw 1 sz idxS H = H
  | _ => True

def ParticleIdx (sym : Cls) (H : Matrix (Fin n) (Fin n) ℂ) : Prop :=
  match sym with
  | .C | .CI => tw (-1) tz idx H = H
  | .CII => tw (-1) (fun i => tz i * sz i) idxS H = H
  | .D | .BDI => tw (-1) (fun _ => 1) id H = H
  | .DIII => tw (-1) (fun _ => 1) idx H = H
  | _ => True

theorem cc_eq (H : Matrix (Fin n) (Fin n) ℂ) : cc H = tw 1 (fun _ => 1) id H := by ext i j; simp [cc, tw]
theorem neg_cc_eq (H : Matrix (Fin n) (Fin n) ℂ) : -cc H = tw (-1) (fun _ => 1) id H := by ext i j; simp [cc, tw]

theorem tauX_cc (hn : 2 ∣ n) (H : Matrix (Fin n) (Fin n) ℂ) : tauX n * cc H * tauX n = tw 1 (fun _ => 1) idx H := by
  ext i j
  rw [tauX_eq hn, mono_conj _ (idx_idx hn)]
  simp [tw, cc]

theorem tauY_cc (hn : 2 ∣ n) (H : Matrix (Fin n) (Fin n) ℂ) : tauY n * cc H * tauY n = tw 1 tz idx H := by
  ext i j
  rw [tauY_eq hn, mono_conj _ (idx_idx hn)]
  simp only [tw, cc, tz_idx hn, map_apply, ofReal_neg, ofReal_one]
  linear_combination -(tz i * tz j * (starRingEnd ℂ) (H (idx i) (idx j))) * I_mul_I

theorem tauZ_cc (H : Matrix (Fin n) (Fin n) ℂ) : tauZ n * cc H * tauZ n = tw 1 tz id H := by
  ext i j
  rw [tauZ_eq, mono_conj _ (fun _ => rfl)]
  simp only [tw, cc, map_apply, ofReal_one, id]
  ring

theorem tauZ_ch (H : Matrix (Fin n) (Fin n) ℂ) : -(tauZ n * H * tauZ n) = ch H := by
  ext i j
  rw [tauZ_eq, neg_apply, mono_conj _ (fun _ => rfl)]
  simp only [ch, id]
  ring

theorem sigmaY_cc (hn : 4 ∣ n) (H : Matrix (Fin n) (Fin n) ℂ) : sigmaY n * cc H * sigmaY n = tw 1 sz idxS H := by
  ext i j
  rw [sigmaY_eq hn, mono_conj _ (idxS_idxS hn)]
  simp only [tw, cc, sz_idxS hn, map_apply, ofReal_neg, ofReal_one]
  linear_combination -(sz i * sz j * (starRingEnd ℂ) (H (idxS i) (idxS j))) * I_mul_I

theorem tauZ_sigmaY (hn : 4 ∣ n) : tauZ n * sigmaY n = mono (fun i => -I * ((tz i : ℂ) * sz i)) idxS := by
  ext i j
  rw [tauZ_eq, sigmaY_eq hn, mono_mul]
  unfold mono
  simp only [id]
  split <;> ring

theorem tauZsigmaY_cc (hn : 4 ∣ n) (H : Matrix (Fin n) (Fin n) ℂ) :
    -(tauZ n * sigmaY n * cc H * (tauZ n * sigmaY n)) = tw (-1) (fun i => tz i * sz i) idxS H := by
  ext i j
  rw [tauZ_sigmaY hn, neg_apply, mono_conj _ (idxS_idxS hn)]
  simp only [tw, cc, sz_idxS hn, tz_idxS hn, map_apply, ofReal_neg, ofReal_one, ofReal_mul]
  linear_combination (tz i * sz i * tz j * sz j * (starRingEnd ℂ) (H (idxS i) (idxS j))) * I_mul_I

theorem neg_tw (s : ℝ) (z : Fin n → ℝ) (ix : Fin n → Fin n) (x : Matrix (Fin n) (Fin n) ℂ) : -tw s z ix x = tw (-s) z ix x := by
  ext i j; simp [tw]

theorem timeRel_iff {sym : Cls} (hg : GoodDim sym n) (H : Matrix (Fin n) (Fin n) ℂ) : TimeRel sym H ↔ TimeIdx sym H := by
  cases sym <;> simp only [TimeRel, TimeIdx, GoodDim] at hg ⊢
  · rw [cc_eq, eq_comm]
  · rw [tauY_cc hg, eq_comm]
  · rw [tauZ_cc, eq_comm]
  · rw [sigmaY_cc hg, eq_comm]
  · rw [tauY_cc hg, eq_comm]
  · rw [tauX_cc hg, eq_comm]

theorem particleRel_iff {sym : Cls} (hg : GoodDim sym n) (H : Matrix (Fin n) (Fin n) ℂ) : ParticleRel sym H ↔ ParticleIdx sym H := by
  cases sym <;> simp only [ParticleRel, ParticleIdx, GoodDim] at hg ⊢
  · rw [neg_cc_eq, eq_comm]
  · rw [tauZsigmaY_cc hg, eq_comm]
  · rw [neg_cc_eq, eq_comm]
  · rw [tauX_cc hg, neg_tw, eq_comm]
  · rw [tauY_cc hg, neg_tw, eq_comm]
  · rw [tauY_cc hg, neg_tw, eq_comm]

theorem chiralRel_iff (sym : Cls) (H : Matrix (Fin n) (Fin n) ℂ) : ChiralRel sym H ↔ (chir sym = true → ch H = H) := by
  cases sym <;> simp only [ChiralRel, chir, tSq, pSq] <;> simp <;> rw [tauZ_ch, eq_comm]

theorem smul_ch (f : ℝ) (x : Matrix (Fin n) (Fin n) ℂ) : ch ((f : ℂ) • x) = (f : ℂ) • ch x := by
  ext i j; simp [ch]; ring

theorem smul_tw (f : ℝ) (s : ℝ) (z : Fin n → ℝ) (ix : Fin n → Fin n) (x : Matrix (Fin n) (Fin n) ℂ) :
    tw s z ix ((f : ℂ) • x) = (f : ℂ) • tw s z ix x := by
  ext i j; simp [tw]; ring

theorem smul_herm (f : ℝ) (x : Matrix (Fin n) (Fin n) ℂ) : ((f : ℂ) • x)ᴴ = (f : ℂ) • xᴴ := by
  rw [conjTranspose_smul]; simp

theorem chiralPart_eq (h : Matrix (Fin n) (Fin n) ℂ) : chiralPart h = h + ch h := by
  ext i j; simp [chiralPart, ch, sub_eq_add_neg]

theorem add_twist (z : Fin n → ℝ) (ix : Fin n → Fin n) (h : Matrix (Fin n) (Fin n) ℂ) : h + twist z ix h = h + tw 1 z ix h := by
  congr 1; ext i j; simp [twist, tw]

theorem sub_twist (z : Fin n → ℝ) (ix : Fin n → Fin n) (h : Matrix (Fin n) (Fin n) ℂ) : h - twist z ix h = h + tw (-1) z ix h := by
  rw [sub_eq_add_neg]; congr 1; ext i j; simp [twist, tw]

/-- The involution of the antiunitary symmetry. -/
noncomputable def antiOp (sym : Cls) : Option (Matrix (Fin n) (Fin n) ℂ → Matrix (Fin n) (Fin n) ℂ) :=
  match sym with
  | .AII | .DIII => some (tw 1 tz idx)
  | .C | .CI => some (tw (-1) tz idx)
  | .CII => some (tw 1 sz idxS)
  | _ => none

theorem antiPart_eq (sym : Cls) (h : Matrix (Fin n) (Fin n) ℂ) : antiPart sym h = match antiOp sym with | none => h | some A => h + A h := by
  cases sym <;> simp only [antiPart, antiOp, add_twist, sub_twist]

theorem antiOp_inv {sym : Cls} (hg : GoodDim sym n) {A : Matrix (Fin n) (Fin n) ℂ → Matrix (Fin n) (Fin n) ℂ} (hA : antiOp sym = some A) :
    (∀ x, A (A x) = x) ∧ (∀ x y, A (x + y) = A x + A y) ∧ (∀ x, (A x)ᴴ = A xᴴ) ∧ (∀ x, ch (A x) = A (ch x)) := by
  have k1 : ∀ i : Fin n, 2 ∣ n → tz i * tz (idx i) = -1 := fun i h => by rw [tz_idx h]; linarith [tz_sq i]
  have k2 : ∀ i : Fin n, 4 ∣ n → sz i * sz (idxS i) = -1 := fun i h => by rw [sz_idxS h]; linarith [sz_sq i]
  cases sym <;> simp only [antiOp, Option.some.injEq, reduceCtorEq, GoodDim] at hA hg <;> subst hA
  · exact ⟨tw_tw (by norm_num) (idx_idx hg) (fun i j => by rw [k1 i hg, k1 j hg]; norm_num), tw_add _ _ _, herm_tw _ _ _,
      ch_tw _ _ (fun i j => by rw [tz_idx hg, tz_idx hg]; ring)⟩
  · exact ⟨tw_tw (by norm_num) (idxS_idxS hg) (fun i j => by rw [k2 i hg, k2 j hg]; norm_num), tw_add _ _ _, herm_tw _ _ _,
      ch_tw _ _ (fun i j => by rw [tz_idxS hg, tz_idxS hg])⟩
  · exact ⟨tw_tw (by norm_num) (idx_idx hg) (fun i j => by rw [k1 i hg, k1 j hg]; norm_num), tw_add _ _ _, herm_tw _ _ _,
      ch_tw _ _ (fun i j => by rw [tz_idx hg, tz_idx hg]; ring)⟩
  · exact ⟨tw_tw (by norm_num) (idx_idx hg) (fun i j => by rw [k1 i hg, k1 j hg]; norm_num), tw_add _ _ _, herm_tw _ _ _,
      ch_tw _ _ (fun i j => by rw [tz_idx hg, tz_idx hg]; ring)⟩
  · exact ⟨tw_tw (by norm_num) (idx_idx hg) (fun i j => by rw [k1 i hg, k1 j hg]; norm_num), tw_add _ _ _, herm_tw _ _ _,
      ch_tw _ _ (fun i j => by rw [tz_idx hg, tz_idx hg]; ring)⟩

/-- The reality condition of the draw. -/
noncomputable def realOp (sym : Cls) : Option (Matrix (Fin n) (Fin n) ℂ → Matrix (Fin n) (Fin n) ℂ) :=
  match sym with
  | .AI => some (tw 1 (fun _ => 1) id)
  | .D | .BDI => some (tw (-1) (fun _ => 1) id)
  | _ => none

theorem draw_real (sym : Cls) (r1 r2 : Matrix (Fin n) (Fin n) ℝ) {A : Matrix (Fin n) (Fin n) ℂ → Matrix (Fin n) (Fin n) ℂ} (hA : realOp sym = some A) :
    A (draw sym r1 r2) = draw sym r1 r2 := by
  cases sym <;> simp only [realOp, Option.some.injEq, reduceCtorEq] at hA <;> subst hA <;> ext i j <;> simp [tw, draw]

/-- The relations in terms of the involutions used by the code. -/
theorem inClass_iff {sym : Cls} (hg : GoodDim sym n) (H : Matrix (Fin n) (Fin n) ℂ) : InClass sym H ↔
    Hᴴ = H ∧ (chir sym = true → ch H = H) ∧ (∀ A, antiOp sym = some A → A H = H) ∧ (∀ A, realOp sym = some A → A H = H) := by
  have e : InClass sym H ↔ Hᴴ = H ∧ TimeIdx sym H ∧ ParticleIdx sym H ∧ (chir sym = true → ch H = H) :=
    ⟨fun h => ⟨h.herm, (timeRel_iff hg H).mp h.time, (particleRel_iff hg H).mp h.particle, (chiralRel_iff sym H).mp h.chiral⟩,
      fun h => ⟨h.1, (timeRel_iff hg H).mpr h.2.1, (particleRel_iff hg H).mpr h.2.2.1, (chiralRel_iff sym H).mpr h.2.2.2⟩⟩
  rw [e]
  have hx : ∀ (s : ℝ) (z : Fin n → ℝ) (ix : Fin n → Fin n), ch H = H → tw s z ix H = H → tw (-s) (fun i => tz i * z i) ix H = H := by
    intro s z ix h1 h2
    rw [← ch_tw', h2, h1]
  cases sym <;> simp [TimeIdx, ParticleIdx, antiOp, realOp, chir, tSq, pSq]
  · intro _
    refine ⟨fun h => ⟨h.2.2, h.2.1⟩, fun h => ⟨?_, h.2, h.1⟩⟩
    have := hx _ _ _ h.1 h.2
    simpa using this
  · intro _
    refine ⟨fun h => ⟨h.2.2, h.1⟩, fun h => ⟨h.2, ?_, h.1⟩⟩
    exact hx _ _ _ h.1 h.2
  · intro _
    refine ⟨fun h => ⟨h.2.2, h.1⟩, fun h => ⟨h.2, ?_, h.1⟩⟩
    have := hx _ _ _ h.1 h.2
    rwa [tw_tz] at this
  · intro _
    refine ⟨fun h => ⟨h.2.2, h.2.1⟩, fun h => ⟨?_, h.2, h.1⟩⟩
    have := hx _ _ _ h.1 h.2
    rw [tw_tz, neg_neg] at this
    exact this

theorem goodDim_iff (sym : Cls) (v : ℝ) (r1 r2 : Matrix (Fin n) (Fin n) ℝ) :
    (GoodDim sym n ↔ ∃ H, gaussian sym v r1 r2 = .ok H) := by
  unfold gaussian
  have d2 : 2 ∣ n ↔ n % 2 = 0 := Nat.dvd_iff_mod_eq_zero
  have d4 : 4 ∣ n ↔ n % 4 = 0 := Nat.dvd_iff_mod_eq_zero
  cases sym <;> simp [GoodDim, chir, tSq, pSq, d2, d4]
  all_goals first
    | (split <;> simp_all; done)
    | (split
       · simp; omega
       · split <;> simp_all)

/-- The value if the dimension is good. -/
theorem gaussian_eq {sym : Cls} (hg : GoodDim sym n) (v : ℝ) (r1 r2 : Matrix (Fin n) (Fin n) ℝ) :
    gaussian sym v r1 r2 = .ok ((factor sym v : ℂ) • antiPart sym
      (if chir sym then chiralPart (draw sym r1 r2 + (draw sym r1 r2)ᴴ) else draw sym r1 r2 + (draw sym r1 r2)ᴴ)) := by
  obtain ⟨H, hH⟩ := (goodDim_iff sym v r1 r2).mp hg
  have := hH
  unfold gaussian at this
  split at this
  · cases this
  · split at this
    · cases this
    · unfold gaussian
      rw [if_neg (by assumption), if_neg (by assumption)]

/-- **C61**: for every draw, scale and class, `gaussian` raises exactly if the dimension is not the documented one, and otherwise
returns a Hermitian matrix with all documented symmetries. -/
theorem C61_gaussian (sym : Cls) (v : ℝ) (r1 r2 : Matrix (Fin n) (Fin n) ℝ) :
    (GoodDim sym n ↔ ∃ H, gaussian sym v r1 r2 = .ok H) ∧ ∀ H, gaussian sym v r1 r2 = .ok H → InClass sym H := by
  refine ⟨goodDim_iff sym v r1 r2, fun H hH => ?_⟩
  have hg := (goodDim_iff sym v r1 r2).mpr ⟨H, hH⟩
  rw [gaussian_eq hg] at hH
  obtain rfl := Except.ok.inj hH
  rw [inClass_iff hg]
  set d := draw sym r1 r2 with hd
  have a1 : (d + dᴴ)ᴴ = d + dᴴ := fix_self herm_add (fun x => conjTranspose_conjTranspose x) d
  have a2 : ∀ A, realOp sym = some A → A (d + dᴴ) = d + dᴴ := by
    intro A hA
    refine fix_comm (B := fun x => xᴴ) ?_ ?_ (draw_real sym r1 r2 hA)
    · cases sym <;> simp only [realOp, Option.some.injEq, reduceCtorEq] at hA <;> subst hA <;> exact tw_add _ _ _
    · cases sym <;> simp only [realOp, Option.some.injEq, reduceCtorEq] at hA <;> subst hA <;> intro x <;> exact (herm_tw _ _ _ x).symm
  have hreal : ∀ A, realOp (n := n) sym = some A → (∀ x y, A (x + y) = A x + A y) ∧ (∀ x, A (ch x) = ch (A x)) ∧
      (∀ (f : ℝ) x, A ((f : ℂ) • x) = (f : ℂ) • A x) ∧ antiOp (n := n) sym = none := by
    intro A hA
    cases sym <;> simp only [realOp, Option.some.injEq, reduceCtorEq] at hA <;> subst hA <;>
      exact ⟨tw_add _ _ _, fun x => (ch_tw _ _ (fun i j => rfl) x).symm, fun f x => smul_tw f _ _ _ x, rfl⟩
  set h2 := (if chir sym then chiralPart (d + dᴴ) else d + dᴴ) with hh2
  have b1 : h2ᴴ = h2 := by
    rw [hh2]
    split
    · rw [chiralPart_eq]; exact fix_comm (A := fun x => xᴴ) (B := ch) herm_add herm_ch a1
    · exact a1
  have b2 : chir sym = true → ch h2 = h2 := by
    intro hc
    rw [hh2, if_pos hc, chiralPart_eq]
    exact fix_self ch_add ch_ch _
  have b3 : ∀ A, realOp sym = some A → A h2 = h2 := by
    intro A hA
    rw [hh2]
    split
    · rw [chiralPart_eq]; exact fix_comm (hreal A hA).1 (hreal A hA).2.1 (a2 A hA)
    · exact a2 A hA
  rw [antiPart_eq]
  cases hA : antiOp (n := n) sym with
  | none =>
    refine ⟨by rw [smul_herm, b1], fun hc => by rw [smul_ch, b2 hc], fun A h => (by cases h), fun A hA' => ?_⟩
    rw [(hreal A hA').2.2.1, b3 A hA']
  | some A =>
    obtain ⟨i1, i2, i3, i4⟩ := antiOp_inv hg hA
    refine ⟨?_, fun hc => ?_, fun A' hA' => ?_, fun A' hA' => ?_⟩
    · rw [smul_herm]; congr 1; exact fix_comm (A := fun x => xᴴ) herm_add i3 b1
    · rw [smul_ch]; congr 1; exact fix_comm ch_add i4 (b2 hc)
    · obtain rfl := Option.some.inj hA'
      have hs : ∀ (f : ℝ) x, A ((f : ℂ) • x) = (f : ℂ) • A x := by
        intro f x
        cases sym <;> simp only [antiOp, Option.some.injEq, reduceCtorEq] at hA <;> subst hA <;> exact smul_tw f _ _ _ x
      rw [hs]; congr 1; exact fix_self i2 i1 _
    · have := (hreal A' hA').2.2.2
      rw [hA] at this; cases this

theorem factor_ne (sym : Cls) {v : ℝ} (hv : v ≠ 0) : factor sym v ≠ 0 := by
  have h2 : √(2 : ℝ) ≠ 0 := by positivity
  unfold factor
  cases sym <;> simp [chir, tSq, pSq, hv, h2] <;> norm_num

/-- **C61**, conversely: every matrix of the class is the result of a draw, so the documented relations are all the restrictions. -/
theorem C61_complete {sym : Cls} (hg : GoodDim sym n) {v : ℝ} (hv : v ≠ 0) {H : Matrix (Fin n) (Fin n) ℂ} (hH : InClass sym H) :
    ∃ r1 r2, gaussian sym v r1 r2 = .ok H := by
  obtain ⟨h1, h2, h3, h4⟩ := (inClass_iff hg H).mp hH
  have hf := factor_ne sym hv
  let k : ℝ := factor sym v * 2 * (if chir sym then 2 else 1) * (if (antiOp (n := n) sym).isSome then 2 else 1)
  have hk : k ≠ 0 := by
    have e1 : (if chir sym then (2 : ℝ) else 1) ≠ 0 := by split <;> norm_num
    have e2 : (if (antiOp (n := n) sym).isSome then (2 : ℝ) else 1) ≠ 0 := by split <;> norm_num
    exact mul_ne_zero (mul_ne_zero (mul_ne_zero hf (by norm_num)) e1) e2
  let c : ℝ := k⁻¹
  let r1 : Matrix (Fin n) (Fin n) ℝ := fun i j => match sym with
    | .D | .BDI => c * (H i j).im
    | _ => c * (H i j).re
  let r2 : Matrix (Fin n) (Fin n) ℝ := fun i j => c * (H i j).im
  have hd : draw sym r1 r2 = (c : ℂ) • H := by
    ext i j
    have hre : realOp (n := n) sym = some (tw 1 (fun _ => 1) id) → (H i j).im = 0 := by
      intro hr
      have := congrFun (congrFun (h4 _ hr) i) j
      simp only [tw, ofReal_one, one_mul, mul_one, id] at this
      have := congrArg Complex.im this
      simp at this
      linarith
    have him : realOp (n := n) sym = some (tw (-1) (fun _ => 1) id) → (H i j).re = 0 := by
      intro hr
      have := congrFun (congrFun (h4 _ hr) i) j
      simp only [tw, ofReal_one, one_mul, mul_one, id] at this
      have := congrArg Complex.re this
      simp at this
      linarith
    apply Complex.ext
    · cases sym <;> simp [draw, r1, r2] <;> simp [realOp] at him <;> simp [him]
    · cases sym <;> simp [draw, r1, r2] <;> simp [realOp] at hre <;> simp [hre]
  refine ⟨r1, r2, ?_⟩
  rw [gaussian_eq hg, hd, antiPart_eq]
  have hc : ∀ x : ℝ, ((x : ℂ) • H)ᴴ = (x : ℂ) • H := fun x => by rw [smul_herm, h1]
  have hdbl : ∀ x : ℝ, (x : ℂ) • H + (x : ℂ) • H = ((2 * x : ℝ) : ℂ) • H := fun x => by
    rw [← add_smul]; congr 1; push_cast; ring
  rw [hc, hdbl]
  have hch : (if chir sym then chiralPart (((2 * c : ℝ) : ℂ) • H) else ((2 * c : ℝ) : ℂ) • H) =
      (((if chir sym then 2 else 1) * (2 * c) : ℝ) : ℂ) • H := by
    split
    · next hcs => rw [chiralPart_eq, smul_ch, h2 hcs, hdbl]
    · rw [one_mul]
  rw [hch]
  congr 1
  cases hA : antiOp (n := n) sym with
  | none =>
    simp only
    rw [smul_smul, ← ofReal_mul]
    have : factor sym v * ((if chir sym then 2 else 1) * (2 * c)) = 1 := by
      have hkk : k * c = 1 := mul_inv_cancel₀ hk
      simp only [k, hA, Option.isSome_none, Bool.false_eq_true, if_false, mul_one] at hkk
      linarith
    rw [this, ofReal_one, one_smul]
  | some A =>
    have hs : ∀ (f : ℝ) x, A ((f : ℂ) • x) = (f : ℂ) • A x := by
      intro f x
      cases sym <;> simp only [antiOp, Option.some.injEq, reduceCtorEq] at hA <;> subst hA <;> exact smul_tw f _ _ _ x
    simp only
    rw [hs, h3 A hA, hdbl, smul_smul, ← ofReal_mul]
    have : factor sym v * (2 * ((if chir sym then 2 else 1) * (2 * c))) = 1 := by
      have hkk : k * c = 1 := mul_inv_cancel₀ hk
      simp only [k, hA, Option.isSome_some, if_true] at hkk
      linarith
    rw [this, ofReal_one, one_smul]

end Kwant.Rmt
