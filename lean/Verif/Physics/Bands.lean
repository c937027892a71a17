import Verif.Physics.Perturb
import Mathlib.Analysis.SpecialFunctions.Trigonometric.Deriv
import Mathlib.Analysis.Complex.Trigonometric
import Mathlib.Analysis.Calculus.Deriv.Pow
import Mathlib.Analysis.Matrix.Normed
import Mathlib.Analysis.Matrix.Spectrum
import Mathlib.LinearAlgebra.Matrix.Charpoly.Basic
import Mathlib.LinearAlgebra.Matrix.Charpoly.Coeff

/-!
C65, C99: kwant/physics/dispersion.py, `Bands`.

Simplifications: exact real and complex arithmetic (`np.allclose` is equality); `np.linalg.eigh` and `np.linalg.eigvalsh` are arbitrary functions with the
contracts `EighOk` and `EigvalshOk`, which promise nothing for matrices that are not Hermitian; `cell_hamiltonian` and `inter_cell_hopping` are given as
matrices, the second one with at most as many columns as rows (they are the subject of C40 - C50).  The result, a tuple whose length depends on the arguments,
is a record with optional entries.
-/

set_option linter.unusedSectionVars false

namespace Kwant.Bands
open Matrix Complex

variable {N M : ℕ}

/-- What `np.divide(1, ediff, where=(ediff != 0))` leaves in the places where the condition is false: the array is allocated by NumPy and not initialised. -/
abbrev Garbage (N : ℕ) := Fin N → Fin N → ℝ

inductive BErr | valueError | notImplemented
  deriving DecidableEq

/-- The attributes of a `Bands` instance. -/
structure Bands (N : ℕ) where
  ham : Matrix (Fin N) (Fin N) ℂ
  hop : Matrix (Fin N) (Fin N) ℂ

open Classical in
/-- `Bands.__init__` (dispersion.py l.55-63) -/
noncomputable def init (ham : Matrix (Fin N) (Fin N) ℂ) (hop : Matrix (Fin N) (Fin M) ℂ) : Except BErr (Bands N) :=
  if ham = hamᴴ then
    .ok ⟨ham, of fun i j => if h : j.val < M then hop i ⟨j.val, h⟩ else 0⟩
  else .error .valueError

/-- `mat = self.hop * complex(math.cos(k), -math.sin(k))` (dispersion.py l.117) -/
noncomputable def mat (b : Bands N) (k : ℝ) : Matrix (Fin N) (Fin N) ℂ := (⟨Real.cos k, -Real.sin k⟩ : ℂ) • b.hop

/-- `h0` (dispersion.py l.118) -/
noncomputable def h0 (b : Bands N) (k : ℝ) : Matrix (Fin N) (Fin N) ℂ := mat b k + (mat b k)ᴴ + b.ham

/-- `h1` (dispersion.py l.129) -/
noncomputable def h1 (b : Bands N) (k : ℝ) : Matrix (Fin N) (Fin N) ℂ := I • (-mat b k + (mat b k)ᴴ)

/-- `h2` (dispersion.py l.148) -/
noncomputable def h2 (b : Bands N) (k : ℝ) : Matrix (Fin N) (Fin N) ℂ := -(mat b k + (mat b k)ᴴ)

/-- The result of `Bands.__call__`. -/
structure Out (N : ℕ) where
  energies : Fin N → ℝ
  velocities : Option (Fin N → ℝ)
  curvatures : Option (Fin N → ℝ)
  eigenvectors : Option (Matrix (Fin N) (Fin N) ℂ)

/-- `ph1p` (dispersion.py l.138) -/
noncomputable def ph1p (b : Bands N) (k : ℝ) (v : Matrix (Fin N) (Fin N) ℂ) : Matrix (Fin N) (Fin N) ℂ := vᴴ * h1 b k * v

/-- `velocities` (dispersion.py l.134-139): `_crossover_size` is 8. -/
noncomputable def velocities (b : Bands N) (k : ℝ) (order : ℕ) (v : Matrix (Fin N) (Fin N) ℂ) : Fin N → ℝ :=
  if order = 1 ∧ 8 < N then fun n => (∑ i, (starRingEnd ℂ) (v i n) * (h1 b k * v) i n).re
  else fun n => (ph1p b k v n n).re

/-- `ediff` (dispersion.py l.144-145) -/
noncomputable def ediff (g : Garbage N) (e : Fin N → ℝ) (i j : Fin N) : ℝ := if e i - e j ≠ 0 then 1 / (e i - e j) else g i j

/-- `curvatures` (dispersion.py l.147-148) -/
noncomputable def curvatures (b : Bands N) (g : Garbage N) (k : ℝ) (e : Fin N → ℝ) (v : Matrix (Fin N) (Fin N) ℂ) : Fin N → ℝ :=
  fun n => (∑ i, ((starRingEnd ℂ) (v i n) * (h2 b k * v) i n - 2 * (ediff g e i n : ℂ) * ((‖ph1p b k v i n‖ ^ 2 : ℝ) : ℂ))).re

/-- `Bands.__call__` (dispersion.py l.65-167) -/
noncomputable def call (eigh : Matrix (Fin N) (Fin N) ℂ → (Fin N → ℝ) × Matrix (Fin N) (Fin N) ℂ) (eigvalsh : Matrix (Fin N) (Fin N) ℂ → Fin N → ℝ)
    (g : Garbage N) (b : Bands N) (k : ℝ) (order : ℕ) (vecs : Bool) : Except BErr (Out N) :=
  let e := if vecs = true ∨ 0 < order then (eigh (h0 b k)).1 else eigvalsh (h0 b k)
  let v := (eigh (h0 b k)).2
  if 2 < order then .error .notImplemented
  else .ok
    { energies := e
      velocities := if 1 ≤ order then some (velocities b k order v) else none
      curvatures := if 2 ≤ order then some (curvatures b g k e v) else none
      eigenvectors := if vecs then some v else none }

/-! ### Contracts -/

/-- `np.linalg.eigh` -/
def EighOk (eigh : Matrix (Fin N) (Fin N) ℂ → (Fin N → ℝ) × Matrix (Fin N) (Fin N) ℂ) : Prop :=
  ∀ h, h.IsHermitian → Diagonalizes h (eigh h).1 (eigh h).2

/-- `np.linalg.eigvalsh` -/
def EigvalshOk (eigvalsh : Matrix (Fin N) (Fin N) ℂ → Fin N → ℝ) : Prop := ∀ h, h.IsHermitian → ∃ v, Diagonalizes h (eigvalsh h) v

/-! ### Specification -/

/-- The Schrödinger equation of the infinite wire: `ham` acts inside of each unit cell, `hop` from the first `M` orbitals of a cell to the next cell. -/
def Schroedinger (ham : Matrix (Fin N) (Fin N) ℂ) (hop : Matrix (Fin N) (Fin M) ℂ) (hM : M ≤ N) (E : ℝ) (ψ : ℤ → Fin N → ℂ) : Prop :=
  ∀ n i, ∑ j, ham i j * ψ n j + ∑ j : Fin M, hop i j * ψ (n - 1) (Fin.castLE hM j) +
    (if h : i.val < M then ∑ j, (starRingEnd ℂ) (hop j ⟨i.val, h⟩) * ψ (n + 1) j else 0) = E * ψ n i

/-- `E` is an energy at momentum `k`: there is a Bloch wave. -/
def IsBandEnergy (ham : Matrix (Fin N) (Fin N) ℂ) (hop : Matrix (Fin N) (Fin M) ℂ) (hM : M ≤ N) (k E : ℝ) : Prop :=
  ∃ φ : Fin N → ℂ, φ ≠ 0 ∧ Schroedinger ham hop hM E fun n i => Complex.exp (I * k * n) * φ i

/-! ### Energies -/

theorem phase_eq (k : ℝ) : (⟨Real.cos k, -Real.sin k⟩ : ℂ) = Complex.exp (-(I * k)) := by
  rw [show -(I * (k : ℂ)) = ((-k : ℝ) : ℂ) * I by push_cast; ring, Complex.exp_mul_I, ← Complex.ofReal_cos, ← Complex.ofReal_sin]
  apply Complex.ext <;> simp [Complex.ofReal_cos, Complex.ofReal_sin, ← Complex.ofReal_cos, ← Complex.ofReal_sin]

theorem h0_herm {b : Bands N} (hb : b.ham = b.hamᴴ) (k : ℝ) : (h0 b k).IsHermitian := by
  unfold h0 IsHermitian
  rw [conjTranspose_add, conjTranspose_add, conjTranspose_conjTranspose, ← hb, add_comm (mat b k)ᴴ]

theorem diag_herm {h : Matrix (Fin N) (Fin N) ℂ} {e : Fin N → ℝ} {v : Matrix (Fin N) (Fin N) ℂ} (hd : Diagonalizes h e v) :
    v * vᴴ = 1 ∧ h = v * (diagonal fun n => (e n : ℂ)) * vᴴ := by
  have hv : v * vᴴ = 1 := mul_eq_one_comm.mp hd.2.1
  refine ⟨hv, ?_⟩
  rw [← hd.2.2, Matrix.mul_assoc, hv, Matrix.mul_one]

/-- The eigenvalues are found with their multiplicities. -/
theorem charpoly_eq {h : Matrix (Fin N) (Fin N) ℂ} {e : Fin N → ℝ} {v : Matrix (Fin N) (Fin N) ℂ} (hd : Diagonalizes h e v) :
    h.charpoly = ∏ n, (Polynomial.X - Polynomial.C (e n : ℂ)) := by
  obtain ⟨hv, hh⟩ := diag_herm hd
  have u : IsUnit v := ⟨⟨v, vᴴ, hv, hd.2.1⟩, rfl⟩
  have hinv : v⁻¹ = vᴴ := Matrix.inv_eq_right_inv hv
  rw [hh, ← Matrix.charpoly_diagonal]
  have := Matrix.charpoly_units_conj (⟨v, vᴴ, hv, hd.2.1⟩ : (Matrix (Fin N) (Fin N) ℂ)ˣ) (diagonal fun n => (e n : ℂ))
  rw [← Matrix.coe_units_inv] at this
  exact this

/-- The Hamiltonian at momentum `k`, entry by entry. -/
theorem h0_apply {ham : Matrix (Fin N) (Fin N) ℂ} {hop : Matrix (Fin N) (Fin M) ℂ} (hM : M ≤ N) {b : Bands N} (hi : init ham hop = .ok b) (k : ℝ)
    (φ : Fin N → ℂ) (i : Fin N) :
    ∑ j, h0 b k i j * φ j = ∑ j, ham i j * φ j + ∑ j : Fin M, Complex.exp (-(I * k)) * hop i j * φ (Fin.castLE hM j) +
      (if h : i.val < M then ∑ j, Complex.exp (I * k) * (starRingEnd ℂ) (hop j ⟨i.val, h⟩) * φ j else 0) := by
  unfold init at hi
  split at hi
  · have hb := (Except.ok.inj hi).symm
    subst hb
    unfold h0 mat
    rw [phase_eq]
    simp only [Matrix.add_apply, add_mul, Finset.sum_add_distrib, conjTranspose_apply, Matrix.smul_apply, of_apply, smul_eq_mul]
    have e1 : ∑ j : Fin N, Complex.exp (-(I * k)) * (if h : j.val < M then hop i ⟨j.val, h⟩ else 0) * φ j =
        ∑ j : Fin M, Complex.exp (-(I * k)) * hop i j * φ (Fin.castLE hM j) := by
      symm
      refine Finset.sum_of_injOn (Fin.castLE hM) (fun a _ b _ h => Fin.castLE_injective hM h) (fun _ _ => Finset.mem_coe.mpr (Finset.mem_univ _)) ?_ ?_
      · intro j _ hj
        rw [dif_neg, mul_zero, zero_mul]
        intro h
        exact hj ⟨⟨j.val, h⟩, Finset.mem_coe.mpr (Finset.mem_univ _), rfl⟩
      · intro j _
        rw [dif_pos (show (Fin.castLE hM j).val < M from j.isLt)]
        rfl
    have e2 : ∑ j : Fin N, star (Complex.exp (-(I * k)) * (if h : i.val < M then hop j ⟨i.val, h⟩ else 0)) * φ j =
        if h : i.val < M then ∑ j, Complex.exp (I * k) * (starRingEnd ℂ) (hop j ⟨i.val, h⟩) * φ j else 0 := by
      have hconj : star (Complex.exp (-(I * k))) = Complex.exp (I * k) := by
        rw [RCLike.star_def, ← Complex.exp_conj]
        congr 1
        simp
      split
      · exact Finset.sum_congr rfl fun j _ => by rw [star_mul', hconj]; rfl
      · exact Finset.sum_eq_zero fun j _ => by rw [mul_zero, star_zero, zero_mul]
    rw [e1, e2]
    ring
  · cases hi

/-- Bloch waves and eigenvectors. -/
theorem bloch_iff {ham : Matrix (Fin N) (Fin N) ℂ} {hop : Matrix (Fin N) (Fin M) ℂ} (hM : M ≤ N) {b : Bands N} (hi : init ham hop = .ok b) (k E : ℝ) (φ : Fin N → ℂ) :
    (Schroedinger ham hop hM E fun n i => Complex.exp (I * k * n) * φ i) ↔ ∀ i, ∑ j, h0 b k i j * φ j = E * φ i := by
  have step : ∀ (n : ℤ) i, ∑ j, ham i j * (Complex.exp (I * k * n) * φ j) + ∑ j : Fin M, hop i j * (Complex.exp (I * k * (n - 1 : ℤ)) * φ (Fin.castLE hM j)) +
      (if h : i.val < M then ∑ j, (starRingEnd ℂ) (hop j ⟨i.val, h⟩) * (Complex.exp (I * k * (n + 1 : ℤ)) * φ j) else 0) =
      Complex.exp (I * k * n) * ∑ j, h0 b k i j * φ j := by
    intro n i
    rw [h0_apply hM hi, mul_add, mul_add, Finset.mul_sum, Finset.mul_sum]
    congr 1
    · congr 1
      · exact Finset.sum_congr rfl fun j _ => by ring
      · refine Finset.sum_congr rfl fun j _ => ?_
        rw [show I * (k : ℂ) * ((n - 1 : ℤ) : ℂ) = I * k * n + -(I * k) by push_cast; ring, Complex.exp_add]
        ring
    · split
      · rw [Finset.mul_sum]
        refine Finset.sum_congr rfl fun j _ => ?_
        rw [show I * (k : ℂ) * ((n + 1 : ℤ) : ℂ) = I * k * n + I * k by push_cast; ring, Complex.exp_add]
        ring
      · rw [mul_zero]
  constructor
  · intro h i
    have := h 0 i
    rw [step 0 i] at this
    simpa using this
  · intro h n i
    rw [step n i, h i]
    ring

/-- Energies at momentum `k` are the eigenvalues of `h0`. -/
theorem isBandEnergy_iff {ham : Matrix (Fin N) (Fin N) ℂ} {hop : Matrix (Fin N) (Fin M) ℂ} (hM : M ≤ N) {b : Bands N} (hi : init ham hop = .ok b) (k E : ℝ) :
    IsBandEnergy ham hop hM k E ↔ IsEig (h0 b k) E := by
  constructor
  · rintro ⟨φ, h0, h⟩; exact ⟨φ, h0, (bloch_iff hM hi k E φ).mp h⟩
  · rintro ⟨φ, h0, h⟩; exact ⟨φ, h0, (bloch_iff hM hi k E φ).mpr h⟩

theorem isEig_iff {h : Matrix (Fin N) (Fin N) ℂ} {e : Fin N → ℝ} {v : Matrix (Fin N) (Fin N) ℂ} (hh : h.IsHermitian) (hd : Diagonalizes h e v) (x : ℝ) :
    IsEig h x ↔ ∃ n, e n = x := by
  constructor
  · rintro ⟨φ, h0, hφ⟩
    by_contra hx
    push Not at hx
    apply h0
    refine coef_zero hd.2.1 fun m => ?_
    have h1 := coef_eig hh hd φ m
    rw [show (fun i => ∑ j, h i j * φ j) = fun i => (x : ℂ) * φ i from funext hφ, coef_smul] at h1
    have h2 : ((x : ℂ) - e m) * coef v φ m = 0 := by rw [sub_mul, h1, sub_self]
    rcases mul_eq_zero.mp h2 with h3 | h3
    · exact absurd (by exact_mod_cast (sub_eq_zero.mp h3).symm) (hx m)
    · exact h3
  · rintro ⟨n, rfl⟩
    refine ⟨fun i => v i n, fun h0 => ?_, fun i => col_eig hd n i⟩
    have := coef_col hd.2.1 n n
    rw [h0, if_pos rfl] at this
    simp [coef] at this

theorem init_ok {ham : Matrix (Fin N) (Fin N) ℂ} {hop : Matrix (Fin N) (Fin M) ℂ} {b : Bands N} (hi : init ham hop = .ok b) : b.ham = b.hamᴴ := by
  unfold init at hi
  split at hi
  · next h => have hb := (Except.ok.inj hi).symm; subst hb; exact h
  · cases hi

variable {eigh : Matrix (Fin N) (Fin N) ℂ → (Fin N → ℝ) × Matrix (Fin N) (Fin N) ℂ} {eigvalsh : Matrix (Fin N) (Fin N) ℂ → Fin N → ℝ}

/-- **C65**, energies: `Bands` can be constructed exactly if the cell Hamiltonian is Hermitian.  Every call with `derivative_order <= 2` succeeds; the energies
are ascending, they are exactly the energies of the Bloch waves of the infinite wire with momentum `k`, repeated according to their multiplicity, and if
eigenvectors are returned they are orthonormal and solve the Schrödinger equation. -/
theorem C65_energies (he : EighOk eigh) (hv : EigvalshOk eigvalsh) {ham : Matrix (Fin N) (Fin N) ℂ} {hop : Matrix (Fin N) (Fin M) ℂ} (hM : M ≤ N) :
    ((∃ b, init ham hop = .ok b) ↔ ham.IsHermitian) ∧
    ∀ b, init ham hop = .ok b → ∀ (g : Garbage N) (k : ℝ) (order : ℕ) (vecs : Bool),
      (2 < order → call eigh eigvalsh g b k order vecs = .error .notImplemented) ∧
      (order ≤ 2 → ∃ out, call eigh eigvalsh g b k order vecs = .ok out ∧ Monotone out.energies ∧
        (∀ E, IsBandEnergy ham hop hM k E ↔ ∃ n, out.energies n = E) ∧
        (h0 b k).charpoly = ∏ n, (Polynomial.X - Polynomial.C (out.energies n : ℂ)) ∧
        (out.velocities.isSome = true ↔ 1 ≤ order) ∧ (out.curvatures.isSome = true ↔ 2 ≤ order) ∧ (out.eigenvectors.isSome = true ↔ vecs = true) ∧
        ∀ v, out.eigenvectors = some v → vᴴ * v = 1 ∧
          ∀ n, Schroedinger ham hop hM (out.energies n) fun c i => Complex.exp (I * k * c) * v i n) := by
  refine ⟨⟨?_, fun h => ?_⟩, ?_⟩
  · rintro ⟨b, hb⟩
    unfold init at hb
    split at hb
    · next h => exact h.symm
    · cases hb
  · unfold init
    rw [if_pos h.eq.symm]
    exact ⟨_, rfl⟩
  · intro b hb g k order vecs
    have hherm := h0_herm (init_ok hb) k
    constructor
    · intro h; unfold call; simp only; rw [if_pos h]
    · intro h
      have hcall : ∃ out, call eigh eigvalsh g b k order vecs = .ok out ∧
          out.energies = (if vecs = true ∨ 0 < order then (eigh (h0 b k)).1 else eigvalsh (h0 b k)) ∧
          out.velocities = (if 1 ≤ order then some (velocities b k order (eigh (h0 b k)).2) else none) ∧
          out.curvatures = (if 2 ≤ order then some (curvatures b g k (if vecs = true ∨ 0 < order then (eigh (h0 b k)).1 else eigvalsh (h0 b k)) (eigh (h0 b k)).2) else none) ∧
          out.eigenvectors = (if vecs then some (eigh (h0 b k)).2 else none) := by
        unfold call; simp only; rw [if_neg (by omega)]; exact ⟨_, rfl, rfl, rfl, rfl, rfl⟩
      obtain ⟨out, h1, h2, h3, h4, h5⟩ := hcall
      have hdiag : ∃ v, Diagonalizes (h0 b k) out.energies v := by
        rw [h2]; split
        · exact ⟨_, he _ hherm⟩
        · exact hv _ hherm
      obtain ⟨v, hd⟩ := hdiag
      refine ⟨out, h1, hd.1, fun E => (isBandEnergy_iff hM hb k E).trans (isEig_iff hherm hd E), charpoly_eq hd, ?_, ?_, ?_, ?_⟩
      · rw [h3]; split <;> simp_all
      · rw [h4]; split <;> simp_all
      · rw [h5]; cases vecs <;> simp
      · intro w hw
        rw [h5] at hw
        cases vecs with
        | false => cases hw
        | true =>
          have hw' : (eigh (h0 b k)).2 = w := Option.some.inj hw
          have hd' := he _ hherm
          rw [hw'] at hd'
          have he' : out.energies = (eigh (h0 b k)).1 := by rw [h2]; simp
          refine ⟨hd'.2.1, fun n => ?_⟩
          rw [he']
          exact (bloch_iff hM hb k _ fun i => w i n).mpr fun i => col_eig hd' n i

/-! ### Derivatives -/

theorem mat_hasDerivAt (b : Bands N) (k : ℝ) (i j : Fin N) : HasDerivAt (fun t => mat b t i j) (-(I * mat b k i j)) k := by
  have h1 : HasDerivAt (fun t : ℝ => Complex.exp (-(I * t))) (Complex.exp (-(I * k)) * (-(I * 1))) k :=
    (((hasDerivAt_id k).ofReal_comp.const_mul I).neg).cexp
  have h2 := h1.mul_const (b.hop i j)
  have e1 : (fun t => mat b t i j) = fun t : ℝ => Complex.exp (-(I * t)) * b.hop i j := by
    funext t
    unfold mat
    rw [phase_eq]
    rfl
  have e2 : mat b k i j = Complex.exp (-(I * k)) * b.hop i j := congrFun e1 k
  rw [e1, e2]
  have e3 : Complex.exp (-(I * k)) * (-(I * 1)) * b.hop i j = -(I * (Complex.exp (-(I * k)) * b.hop i j)) := by ring
  rw [e3] at h2
  exact h2

theorem matH_hasDerivAt (b : Bands N) (k : ℝ) (i j : Fin N) : HasDerivAt (fun t => (mat b t)ᴴ i j) (I * (mat b k)ᴴ i j) k := by
  have h := (Complex.conjCLE : ℂ →L[ℝ] ℂ).hasFDerivAt.comp_hasDerivAt k (mat_hasDerivAt b k j i)
  have e : (starRingEnd ℂ) (-(I * mat b k j i)) = I * (mat b k)ᴴ i j := by
    rw [conjTranspose_apply, map_neg, map_mul, Complex.conj_I]
    simp
  have h' : HasDerivAt (fun t => (mat b t)ᴴ i j) ((starRingEnd ℂ) (-(I * mat b k j i))) k := h
  rw [e] at h'
  exact h'

/-- `h1` is the derivative of `h0`. -/
theorem h0_hasDerivAt (b : Bands N) (k : ℝ) (i j : Fin N) : HasDerivAt (fun t => h0 b t i j) (h1 b k i j) k := by
  have h := ((mat_hasDerivAt b k i j).add (matH_hasDerivAt b k i j)).add_const (b.ham i j)
  have e : h1 b k i j = -(I * mat b k i j) + I * (mat b k)ᴴ i j := by
    unfold h1
    rw [Matrix.smul_apply, Matrix.add_apply, Matrix.neg_apply, smul_eq_mul]
    ring
  rw [e]
  exact h

/-- `h2` is the derivative of `h1`. -/
theorem h1_hasDerivAt (b : Bands N) (k : ℝ) (i j : Fin N) : HasDerivAt (fun t => h1 b t i j) (h2 b k i j) k := by
  have h := (((mat_hasDerivAt b k i j).neg).add (matH_hasDerivAt b k i j)).const_mul I
  have e : h2 b k i j = I * (-(-(I * mat b k i j)) + I * (mat b k)ᴴ i j) := by
    unfold h2
    rw [Matrix.neg_apply, Matrix.add_apply]
    linear_combination (mat b k i j + (mat b k)ᴴ i j) * (-Complex.I_sq)
  rw [e]
  exact h

theorem h0_contDiff (b : Bands N) (i j : Fin N) : ContDiff ℝ 2 fun t => h0 b t i j := by
  have hm : ∀ i j, ContDiff ℝ 2 fun t => mat b t i j := by
    intro i j
    have e1 : (fun t => mat b t i j) = fun t : ℝ => Complex.exp (-(I * t)) * b.hop i j := by
      funext t
      unfold mat
      rw [phase_eq]
      rfl
    rw [e1]
    exact ((contDiff_const.mul Complex.ofRealCLM.contDiff).neg.cexp).mul contDiff_const
  have hH : ContDiff ℝ 2 fun t => (mat b t)ᴴ i j := (Complex.conjCLE : ℂ →L[ℝ] ℂ).contDiff.comp (hm j i)
  exact ((hm i j).add hH).add contDiff_const

theorem velocities_eq (b : Bands N) (k : ℝ) (order : ℕ) (v : Matrix (Fin N) (Fin N) ℂ) (n : Fin N) :
    velocities b k order v n = ((vᴴ * h1 b k * v) n n).re := by
  unfold velocities
  split
  · rw [Matrix.mul_assoc, Matrix.mul_apply (M := vᴴ)]
    rfl
  · rfl

theorem curvatures_eq (b : Bands N) (g : Garbage N) (k : ℝ) {e : Fin N → ℝ} (v : Matrix (Fin N) (Fin N) ℂ) {n : Fin N} (hn : ∀ m, m ≠ n → e m ≠ e n) :
    curvatures b g k e v n = ((vᴴ * h2 b k * v) n n).re + 2 * ∑ m ∈ Finset.univ.erase n, ‖(vᴴ * h1 b k * v) m n‖ ^ 2 / (e n - e m) -
      2 * g n n * ‖(vᴴ * h1 b k * v) n n‖ ^ 2 := by
  unfold curvatures
  rw [Finset.sum_sub_distrib, Complex.sub_re, Matrix.mul_assoc vᴴ (h2 b k), Matrix.mul_apply (M := vᴴ)]
  have e1 : ∑ i, 2 * (ediff g e i n : ℂ) * ((‖ph1p b k v i n‖ ^ 2 : ℝ) : ℂ) = ((∑ i, 2 * ediff g e i n * ‖ph1p b k v i n‖ ^ 2 : ℝ) : ℂ) := by push_cast; rfl
  rw [e1, Complex.ofReal_re, ← Finset.add_sum_erase _ (fun i => 2 * ediff g e i n * ‖ph1p b k v i n‖ ^ 2) (Finset.mem_univ n)]
  have e2 : ediff g e n n = g n n := by unfold ediff; rw [if_neg (by simp)]
  have e3 : ∑ m ∈ Finset.univ.erase n, 2 * ediff g e m n * ‖ph1p b k v m n‖ ^ 2 = -(2 * ∑ m ∈ Finset.univ.erase n, ‖(vᴴ * h1 b k * v) m n‖ ^ 2 / (e n - e m)) := by
    rw [Finset.mul_sum, ← Finset.sum_neg_distrib]
    refine Finset.sum_congr rfl fun m hm => ?_
    have hne := hn m (Finset.ne_of_mem_erase hm)
    unfold ediff ph1p
    rw [if_pos (sub_ne_zero.mpr hne), ← neg_sub (e m) (e n), div_neg]
    ring
  rw [e2, e3]
  show _ - (2 * g n n * ‖(vᴴ * h1 b k * v) n n‖ ^ 2 + _) = _
  have e4 : (∑ i, (starRingEnd ℂ) (v i n) * (h2 b k * v) i n) = ∑ j, vᴴ n j * (h2 b k * v) j n := rfl
  rw [e4]
  ring

theorem call_data (he : EighOk eigh) {ham : Matrix (Fin N) (Fin N) ℂ} {hop : Matrix (Fin N) (Fin M) ℂ} {b : Bands N} (hb : init ham hop = .ok b) {g : Garbage N}
    {k : ℝ} {order : ℕ} {vecs : Bool} (ho : 1 ≤ order) {out : Out N} (hc : call eigh eigvalsh g b k order vecs = .ok out) :
    ∃ v, Diagonalizes (h0 b k) out.energies v ∧ out.velocities = some (velocities b k order v) ∧
      out.curvatures = if 2 ≤ order then some (curvatures b g k out.energies v) else none := by
  unfold call at hc
  by_cases h2 : 2 < order
  · rw [if_pos h2] at hc; cases hc
  · rw [if_neg h2] at hc
    have := (Except.ok.inj hc).symm
    subst this
    refine ⟨(eigh (h0 b k)).2, ?_, if_pos ho, rfl⟩
    show Diagonalizes _ (if vecs = true ∨ 0 < order then _ else _) _
    rw [if_pos (Or.inr (by omega : 0 < order))]
    exact he _ (h0_herm (init_ok hb) k)

/-- **C65**, velocities: for a non-degenerate band there is a differentiable energy near `k`, and every energy that is continuous at `k` has the returned velocity
as its derivative. -/
theorem C65_velocities (he : EighOk eigh) {ham : Matrix (Fin N) (Fin N) ℂ} {hop : Matrix (Fin N) (Fin M) ℂ} (hM : M ≤ N) {b : Bands N}
    (hb : init ham hop = .ok b) {g : Garbage N} {k : ℝ} {order : ℕ} {vecs : Bool} (ho : 1 ≤ order) {out : Out N}
    (hc : call eigh eigvalsh g b k order vecs = .ok out) {n : Fin N} (hn : ∀ m, m ≠ n → out.energies m ≠ out.energies n) :
    ∃ vel, out.velocities = some vel ∧
      (∃ ε : ℝ → ℝ, ContDiffAt ℝ 2 ε k ∧ ε k = out.energies n ∧ ∀ᶠ t in nhds k, IsBandEnergy ham hop hM t (ε t)) ∧
      ∀ ε : ℝ → ℝ, ContinuousAt ε k → ε k = out.energies n → (∀ᶠ t in nhds k, IsBandEnergy ham hop hM t (ε t)) → HasDerivAt ε (vel n) k := by
  obtain ⟨v, hd, hvel, -⟩ := call_data he hb ho hc
  obtain ⟨ε₀, h1, h2, h3, h4, h5, -⟩ := perturb (h0_contDiff b) (h0_herm (init_ok hb)) (h0_hasDerivAt b) (h1_hasDerivAt b) hd hn
  refine ⟨_, hvel, ⟨ε₀, h2, h1, h3.mono fun t ht => (isBandEnergy_iff hM hb t _).mpr ht⟩, fun ε hcont hk hev => ?_⟩
  rw [velocities_eq]
  exact h5.congr_of_eventuallyEq (h4 ε hcont hk (hev.mono fun t ht => (isBandEnergy_iff hM hb t _).mp ht))

/-- **C99**, partial: the second derivative of the energy of a non-degenerate band is the returned curvature plus `2 g v²`, where `g` is what the memory of the
uninitialised array happened to contain and `v` the velocity.  Missing: the curvature is right in general. -/
theorem C99_curvatures_partial (he : EighOk eigh) {ham : Matrix (Fin N) (Fin N) ℂ} {hop : Matrix (Fin N) (Fin M) ℂ} (hM : M ≤ N) {b : Bands N}
    (hb : init ham hop = .ok b) {g : Garbage N} {k : ℝ} {vecs : Bool} {out : Out N}
    (hc : call eigh eigvalsh g b k 2 vecs = .ok out) {n : Fin N} (hn : ∀ m, m ≠ n → out.energies m ≠ out.energies n) :
    ∃ vel cur, out.velocities = some vel ∧ out.curvatures = some cur ∧
      ∀ ε : ℝ → ℝ, ContinuousAt ε k → ε k = out.energies n → (∀ᶠ t in nhds k, IsBandEnergy ham hop hM t (ε t)) →
        HasDerivAt (deriv ε) (cur n + 2 * g n n * vel n ^ 2) k := by
  obtain ⟨v, hd, hvel, hcur⟩ := call_data he hb (by norm_num) hc
  rw [if_pos le_rfl] at hcur
  obtain ⟨ε₀, -, -, -, h4, h5, h6⟩ := perturb (h0_contDiff b) (h0_herm (init_ok hb)) (h0_hasDerivAt b) (h1_hasDerivAt b) hd hn
  refine ⟨_, _, hvel, hcur, fun ε hcont hk hev => ?_⟩
  have hee : ∀ᶠ t in nhds k, ε t = ε₀ t := h4 ε hcont hk (hev.mono fun t ht => (isBandEnergy_iff hM hb t _).mp ht)
  have hde : deriv ε =ᶠ[nhds k] deriv ε₀ := by
    filter_upwards [hee.eventually_nhds] with t ht
    exact Filter.EventuallyEq.deriv_eq ht
  have hreal : ‖(vᴴ * h1 b k * v) n n‖ ^ 2 = ((vᴴ * h1 b k * v) n n).re ^ 2 := by
    have hself : ((vᴴ * h1 b k * v) n n).im = 0 := by
      have hh : (h1 b k)ᴴ = h1 b k := by
        unfold h1
        rw [conjTranspose_smul, conjTranspose_add, conjTranspose_neg, conjTranspose_conjTranspose, RCLike.star_def, Complex.conj_I, neg_smul, ← smul_neg]
        congr 1
        abel
      have h7 : (vᴴ * h1 b k * v)ᴴ = vᴴ * h1 b k * v := by
        rw [conjTranspose_mul, conjTranspose_mul, conjTranspose_conjTranspose, hh, Matrix.mul_assoc]
      have h8 : (starRingEnd ℂ) ((vᴴ * h1 b k * v) n n) = (vᴴ * h1 b k * v) n n := congrFun (congrFun h7 n) n
      exact Complex.conj_eq_iff_im.mp h8
    rw [← Complex.normSq_eq_norm_sq, Complex.normSq_apply, hself]
    ring
  rw [curvatures_eq b g k v hn, velocities_eq, hreal]
  have h9 := h6.congr_of_eventuallyEq hde
  have e9 : ∀ x y z : ℝ, x + 2 * y - 2 * g n n * z + 2 * g n n * z = x + 2 * y := fun x y z => by ring
  rw [e9]
  exact h9

/-! ### Examples and counterexamples -/

/-- Every Hermitian matrix can be diagonalised with ascending eigenvalues. -/
theorem exists_diagonalizes {h : Matrix (Fin N) (Fin N) ℂ} (hh : h.IsHermitian) : ∃ e v, Diagonalizes h e v := by
  let u : Matrix (Fin N) (Fin N) ℂ := hh.eigenvectorUnitary
  let σ := Tuple.sort hh.eigenvalues
  have hu : uᴴ * u = 1 := Unitary.coe_star_mul_self hh.eigenvectorUnitary
  have hcol : ∀ i j, ∑ l, h i l * u l j = (hh.eigenvalues j : ℂ) * u i j := by
    intro i j
    have := congrFun (hh.mulVec_eigenvectorBasis j) i
    rw [Pi.smul_apply, Complex.real_smul] at this
    exact this
  refine ⟨hh.eigenvalues ∘ σ, of fun i j => u i (σ j), Tuple.monotone_sort _, ?_, ?_⟩
  · ext a b
    have := congrFun (congrFun hu (σ a)) (σ b)
    rw [Matrix.mul_apply, Matrix.one_apply] at this
    rw [Matrix.mul_apply, Matrix.one_apply]
    simp only [conjTranspose_apply, of_apply] at this ⊢
    rw [this]
    simp
  · ext a b
    rw [Matrix.mul_apply, Matrix.mul_diagonal]
    simp only [of_apply, Function.comp_apply]
    rw [hcol, mul_comm]

theorem exists_eigh (N : ℕ) : ∃ eigh : Matrix (Fin N) (Fin N) ℂ → (Fin N → ℝ) × Matrix (Fin N) (Fin N) ℂ, EighOk eigh := by
  have key : ∀ h : Matrix (Fin N) (Fin N) ℂ, ∃ r : (Fin N → ℝ) × Matrix (Fin N) (Fin N) ℂ, h.IsHermitian → Diagonalizes h r.1 r.2 := by
    intro h
    by_cases hh : h.IsHermitian
    · obtain ⟨e, v, hd⟩ := exists_diagonalizes hh; exact ⟨(e, v), fun _ => hd⟩
    · exact ⟨(0, 0), fun h' => absurd h' hh⟩
  choose f hf using key
  exact ⟨f, hf⟩

theorem exists_eigvalsh (N : ℕ) : ∃ eigvalsh : Matrix (Fin N) (Fin N) ℂ → Fin N → ℝ, EigvalshOk eigvalsh := by
  obtain ⟨f, hf⟩ := exists_eigh N
  exact ⟨fun h => (f h).1, fun h hh => ⟨_, hf h hh⟩⟩

/-- A chain with one orbital and the hopping `i/2`: its energy is `sin k`. -/
noncomputable def chainHop : Matrix (Fin 1) (Fin 1) ℂ := of fun _ _ => I / 2

theorem chain_energy (k : ℝ) : IsBandEnergy (0 : Matrix (Fin 1) (Fin 1) ℂ) chainHop le_rfl k (Real.sin k) := by
  obtain ⟨b, hb⟩ : ∃ b, init (0 : Matrix (Fin 1) (Fin 1) ℂ) chainHop = .ok b := by unfold init; rw [if_pos (by simp)]; exact ⟨_, rfl⟩
  rw [isBandEnergy_iff le_rfl hb]
  refine ⟨fun _ => 1, fun h => one_ne_zero (congrFun h 0), fun i => ?_⟩
  rw [h0_apply le_rfl hb]
  have e1 : Complex.exp (-(I * k)) = Real.cos k - Real.sin k * I := by
    rw [← phase_eq]; apply Complex.ext <;> simp [-Complex.ofReal_sin, -Complex.ofReal_cos]
  have e2 : Complex.exp (I * k) = Real.cos k + Real.sin k * I := by
    rw [mul_comm, Complex.exp_mul_I, Complex.ofReal_cos, Complex.ofReal_sin]
  simp only [Fin.sum_univ_one, e1, e2, chainHop, of_apply, Matrix.zero_apply, zero_mul, zero_add, mul_one, map_div₀, Complex.conj_I]
  rw [dif_pos (by omega)]
  have h2 : (starRingEnd ℂ) (2 : ℂ) = 2 := Complex.conj_ofNat 2
  rw [h2]
  linear_combination (-(Real.sin k : ℂ)) * Complex.I_sq

/-- **C99**, counterexample: for the chain the second derivative of the energy at `k = 0` is zero, but the returned curvature is `-2 g`, where `g` is the content
of the uninitialised memory. -/
theorem C99_counterexample {eigh : Matrix (Fin 1) (Fin 1) ℂ → (Fin 1 → ℝ) × Matrix (Fin 1) (Fin 1) ℂ} {eigvalsh : Matrix (Fin 1) (Fin 1) ℂ → Fin 1 → ℝ}
    (he : EighOk eigh) (hv : EigvalshOk eigvalsh) (g : Garbage 1) :
    ∃ b out cur, init (0 : Matrix (Fin 1) (Fin 1) ℂ) chainHop = .ok b ∧ call eigh eigvalsh g b 0 2 false = .ok out ∧ out.curvatures = some cur ∧
      cur 0 = -2 * g 0 0 ∧ out.energies 0 = Real.sin 0 ∧ (∀ t, IsBandEnergy (0 : Matrix (Fin 1) (Fin 1) ℂ) chainHop le_rfl t (Real.sin t)) ∧
      HasDerivAt (deriv Real.sin) 0 0 := by
  obtain ⟨hiff, hall⟩ := C65_energies he hv (ham := (0 : Matrix (Fin 1) (Fin 1) ℂ)) (hop := chainHop) le_rfl
  obtain ⟨b, hb⟩ := hiff.mpr (by unfold IsHermitian; simp)
  obtain ⟨out, hout, -, hen, -⟩ := (hall b hb g 0 2 false).2 le_rfl
  have hE : out.energies 0 = Real.sin 0 := by
    obtain ⟨m, hm⟩ := (hen (Real.sin 0)).mp (chain_energy 0)
    rw [← hm, Subsingleton.elim m 0]
  have hn : ∀ m : Fin 1, m ≠ 0 → out.energies m ≠ out.energies 0 := fun m hm => absurd (Subsingleton.elim m 0) hm
  have hev : ∀ᶠ t in nhds (0 : ℝ), IsBandEnergy (0 : Matrix (Fin 1) (Fin 1) ℂ) chainHop le_rfl t (Real.sin t) := Filter.Eventually.of_forall chain_energy
  have hd2 : HasDerivAt (deriv Real.sin) 0 0 := by
    rw [Real.deriv_sin]
    simpa using Real.hasDerivAt_cos 0
  obtain ⟨vel, hvel, -, h1⟩ := C65_velocities he le_rfl hb (by norm_num) hout hn
  obtain ⟨vel', cur, hvel', hcur, h2⟩ := C99_curvatures_partial he le_rfl hb hout hn
  have hvv : vel' = vel := Option.some.inj (hvel'.symm.trans hvel)
  have hv0 : vel 0 = 1 := by
    have := (h1 Real.sin Real.continuous_sin.continuousAt hE.symm hev).unique (Real.hasDerivAt_sin 0)
    rwa [Real.cos_zero] at this
  have hc0 := (h2 Real.sin Real.continuous_sin.continuousAt hE.symm hev).unique hd2
  rw [hvv, hv0] at hc0
  exact ⟨b, out, cur, hb, hout, hcur, by linarith, hE, chain_energy, hd2⟩

/-- The hypotheses of the theorems can be satisfied (the chain has one non-degenerate band). -/
example : ∃ (eigh : Matrix (Fin 1) (Fin 1) ℂ → (Fin 1 → ℝ) × Matrix (Fin 1) (Fin 1) ℂ) (eigvalsh : Matrix (Fin 1) (Fin 1) ℂ → Fin 1 → ℝ) (b : Bands 1) (out : Out 1),
    EighOk eigh ∧ EigvalshOk eigvalsh ∧ init (0 : Matrix (Fin 1) (Fin 1) ℂ) chainHop = .ok b ∧ call eigh eigvalsh (fun _ _ => 7) b 0 2 false = .ok out ∧
    ∀ m : Fin 1, m ≠ 0 → out.energies m ≠ out.energies 0 := by
  obtain ⟨eigh, he⟩ := exists_eigh 1
  obtain ⟨eigvalsh, hv⟩ := exists_eigvalsh 1
  obtain ⟨b, out, cur, hb, hout, -⟩ := C99_counterexample he hv fun _ _ => 7
  exact ⟨eigh, eigvalsh, b, out, he, hv, hb, hout, fun m hm => absurd (Subsingleton.elim m 0) hm⟩

/-- Two decoupled chains with opposite velocities: the energies are `sin k` and `-sin k`. -/
noncomputable def crossHop : Matrix (Fin 2) (Fin 2) ℂ := diagonal ![I / 2, -(I / 2)]

theorem cross_h0 {b : Bands 2} (hb : init (0 : Matrix (Fin 2) (Fin 2) ℂ) crossHop = .ok b) (k : ℝ) :
    h0 b k = diagonal ![(Real.sin k : ℂ), -(Real.sin k : ℂ)] ∧ h1 b k = diagonal ![(Real.cos k : ℂ), -(Real.cos k : ℂ)] := by
  have hbb : b.ham = 0 ∧ b.hop = crossHop := by
    unfold init at hb
    rw [if_pos (by simp)] at hb
    have := (Except.ok.inj hb).symm
    subst this
    refine ⟨rfl, ?_⟩
    ext i j
    simp only [of_apply]
    rw [dif_pos j.isLt]
  have hmat : mat b k = diagonal ![(⟨Real.cos k, -Real.sin k⟩ : ℂ) * (I / 2), (⟨Real.cos k, -Real.sin k⟩ : ℂ) * -(I / 2)] := by
    unfold mat
    rw [hbb.2]
    unfold crossHop
    ext i j
    fin_cases i <;> fin_cases j <;> simp
  constructor
  · unfold h0
    rw [hmat, hbb.1, add_zero, diagonal_conjTranspose, diagonal_add]
    congr 1
    funext i
    fin_cases i <;> apply Complex.ext <;> simp [-Complex.ofReal_sin, -Complex.ofReal_cos] <;> ring
  · unfold h1
    have hc : (starRingEnd ℂ) (2 : ℂ) = 2 := Complex.conj_ofNat 2
    rw [hmat, diagonal_conjTranspose]
    ext i j
    fin_cases i <;> fin_cases j <;> apply Complex.ext <;> simp [-Complex.ofReal_sin, -Complex.ofReal_cos, hc] <;> ring

/-- **C65**, counterexample at a degeneracy: at a crossing of two bands with the slopes 1 and -1, `np.linalg.eigh` may choose eigenvectors for which the returned
velocities are zero, although no energy has a vanishing derivative there.  (The documentation only excludes degenerate bands for the curvature.) -/
theorem C65_degenerate {eigvalsh : Matrix (Fin 2) (Fin 2) ℂ → Fin 2 → ℝ} (g : Garbage 2) :
    ∃ (eigh : Matrix (Fin 2) (Fin 2) ℂ → (Fin 2 → ℝ) × Matrix (Fin 2) (Fin 2) ℂ) (b : Bands 2) (out : Out 2), EighOk eigh ∧
      init (0 : Matrix (Fin 2) (Fin 2) ℂ) crossHop = .ok b ∧ call eigh eigvalsh g b 0 1 false = .ok out ∧ out.velocities = some (fun _ => 0) ∧
      ∀ ε : ℝ → ℝ, (∀ᶠ t in nhds (0 : ℝ), IsBandEnergy (0 : Matrix (Fin 2) (Fin 2) ℂ) crossHop le_rfl t (ε t)) → ¬ HasDerivAt ε 0 0 := by
  classical
  obtain ⟨f, hf⟩ := exists_eigh 2
  let r : ℂ := ((Real.sqrt 2)⁻¹ : ℝ)
  have hr : r * r = 1 / 2 := by
    show (((Real.sqrt 2)⁻¹ : ℝ) : ℂ) * (((Real.sqrt 2)⁻¹ : ℝ) : ℂ) = 1 / 2
    rw [← ofReal_mul, ← mul_inv, Real.mul_self_sqrt (by norm_num)]
    push_cast; norm_num
  have hrs : star r = r := Complex.conj_ofReal _
  let U : Matrix (Fin 2) (Fin 2) ℂ := !![r, r; r, -r]
  have hU : Uᴴ = U := by
    ext i j
    fin_cases i <;> fin_cases j <;> simp [U, hrs]
  have hUU : U * U = 1 := by
    ext i j
    fin_cases i <;> fin_cases j <;> simp [U, Matrix.mul_apply, Fin.sum_univ_two] <;> linear_combination 2 * hr
  let eigh : Matrix (Fin 2) (Fin 2) ℂ → (Fin 2 → ℝ) × Matrix (Fin 2) (Fin 2) ℂ := fun h => if h = 0 then (fun _ => 0, U) else f h
  have he : EighOk eigh := by
    intro h hh
    by_cases h0 : h = 0
    · have : eigh h = (fun _ => 0, U) := if_pos h0
      rw [this, h0]
      refine ⟨fun _ _ _ => le_rfl, by rw [hU, hUU], ?_⟩
      simp
    · have : eigh h = f h := if_neg h0
      rw [this]; exact hf h hh
  obtain ⟨b, hb⟩ : ∃ b, init (0 : Matrix (Fin 2) (Fin 2) ℂ) crossHop = .ok b := by unfold init; rw [if_pos (by simp)]; exact ⟨_, rfl⟩
  have h00 : h0 b 0 = 0 := by
    rw [(cross_h0 hb 0).1]
    ext i j
    fin_cases i <;> fin_cases j <;> simp
  have hcall : ∃ out, call eigh eigvalsh g b 0 1 false = .ok out ∧ out.velocities = some (velocities b 0 1 (eigh (h0 b 0)).2) := by
    unfold call
    simp only
    rw [if_neg (by norm_num)]
    exact ⟨_, rfl, rfl⟩
  obtain ⟨out, hout, hvel⟩ := hcall
  refine ⟨eigh, b, out, he, hb, hout, ?_, ?_⟩
  · rw [hvel, h00]
    have : (eigh 0).2 = U := by show (if (0 : Matrix (Fin 2) (Fin 2) ℂ) = 0 then ((fun _ => 0 : Fin 2 → ℝ), U) else f 0).2 = U; rw [if_pos rfl]
    rw [this]
    congr 1
    funext n
    rw [velocities_eq, hU, (cross_h0 hb 0).2]
    have e : (U * diagonal ![(Real.cos 0 : ℂ), -(Real.cos 0 : ℂ)] * U) n n = 0 := by
      rw [Matrix.mul_apply, Fin.sum_univ_two, Matrix.mul_diagonal, Matrix.mul_diagonal]
      fin_cases n <;> simp [U]
    rw [e, Complex.zero_re]
  · intro ε hev hder
    have habs : ∀ᶠ t in nhds (0 : ℝ), |ε t| = |Real.sin t| := by
      filter_upwards [hev] with t ht
      obtain ⟨φ, hφ0, hφ⟩ := (isBandEnergy_iff le_rfl hb t _).mp ht
      rw [(cross_h0 hb t).1] at hφ
      have e0 := hφ 0
      have e1 := hφ 1
      simp [Fin.sum_univ_two, -Complex.ofReal_sin] at e0 e1
      by_cases h0 : φ 0 = 0
      · have h1 : φ 1 ≠ 0 := fun h1 => hφ0 (by funext i; fin_cases i <;> simp [h0, h1])
        have : -(Real.sin t) = ε t := by
          have := (mul_right_cancel₀ h1 (by rw [neg_mul]; exact e1) : (-(Real.sin t : ℂ)) = ε t)
          exact_mod_cast this
        rw [← this, abs_neg]
      · have h2 : Real.sin t = ε t := by
          rcases e0 with h | h
          · exact h
          · exact absurd h h0
        rw [h2]
    have hε0 : ε 0 = 0 := by
      have := habs.self_of_nhds
      rwa [Real.sin_zero, abs_zero, abs_eq_zero] at this
    have hsin : HasDerivAt Real.sin 0 0 := by
      rw [hasDerivAt_iff_isLittleO] at hder ⊢
      rw [hε0] at hder
      simp only [smul_zero, sub_zero, Real.sin_zero] at hder ⊢
      refine Asymptotics.IsLittleO.of_norm_left (hder.norm_left.congr' ?_ Filter.EventuallyEq.rfl)
      filter_upwards [habs] with t ht
      rw [Real.norm_eq_abs, Real.norm_eq_abs, ht]
    have := hsin.unique (Real.hasDerivAt_sin 0)
    rw [Real.cos_zero] at this
    exact zero_ne_one this

end Kwant.Bands
