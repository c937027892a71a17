import Mathlib.Data.Int.Bitwise
import Mathlib.Data.Nat.Bitwise
import Mathlib.Analysis.SpecialFunctions.Log.Basic
import Mathlib.Analysis.SpecialFunctions.Trigonometric.Basic
import Mathlib.Analysis.Real.Sqrt

/-!
C67: kwant/digest.py.  The md5 digest is an arbitrary list of 16 bytes.  The floating point products `a * 2**-53` with `0 <= a < 2**53`
and the difference `1.0 - b` are exact in IEEE double precision (`C67_exact`), so real numbers are used.
-/

namespace Kwant.Digest

/-- Little-endian unsigned integer of a list of bytes. -/
def fromBytes : List (Fin 256) → ℕ
  | [] => 0
  | b :: l => b.val + 256 * fromBytes l

/-- `unpack('q', bytes)`: signed 64-bit integer (two's complement). -/
def signed64 (l : List (Fin 256)) : ℤ := if fromBytes l < 2 ^ 63 then fromBytes l else (fromBytes l : ℤ) - 2 ^ 64

/-- `BPF_MASK` (digest.py l.33) -/
def mask : ℤ := 2 ^ 53 - 1

/-- The integers of `uniform2` after masking (digest.py l.49-51); `Int.land` is Python's `&` on integers of either sign. -/
def masked (digest : List (Fin 256)) : ℤ × ℤ :=
  (Int.land (signed64 (digest.take 8)) mask, Int.land (signed64 (digest.drop 8)) mask)

/-- `uniform2` (digest.py l.44-52): `a * RECIP_BPF, b * RECIP_BPF`. -/
noncomputable def uniform2 (digest : List (Fin 256)) : ℝ × ℝ :=
  ((masked digest).1 * (2 : ℝ) ^ (-53 : ℤ), (masked digest).2 * (2 : ℝ) ^ (-53 : ℤ))

/-- `uniform` (digest.py l.55-61) -/
noncomputable def uniform (digest : List (Fin 256)) : ℝ := (uniform2 digest).1

/-- The argument of the logarithm in `gauss` (digest.py l.74) -/
noncomputable def gaussLogArg (digest : List (Fin 256)) : ℝ := 1 - (uniform2 digest).2

/-- The argument of the square root in `gauss`. -/
noncomputable def gaussSqrtArg (digest : List (Fin 256)) : ℝ := -2 * Real.log (gaussLogArg digest)

theorem land_mask (a : ℤ) : Int.land a mask = a % 2 ^ 53 := by
  have hm : mask = Int.ofNat (2 ^ 53 - 1) := by decide
  cases a with
  | ofNat n =>
    rw [hm]
    show ((n &&& (2 ^ 53 - 1) : ℕ) : ℤ) = _
    rw [Nat.and_two_pow_sub_one_eq_mod]
    exact Int.natCast_mod n (2 ^ 53)
  | negSucc n =>
    rw [hm]
    show ((Nat.ldiff (2 ^ 53 - 1) n : ℕ) : ℤ) = _
    have h1 : Nat.ldiff (2 ^ 53 - 1) n = 2 ^ 53 - 1 - n % 2 ^ 53 := by
      have h2 : 2 ^ 53 - 1 - n % 2 ^ 53 = 2 ^ 53 - (n % 2 ^ 53 + 1) := by omega
      rw [h2]
      refine Nat.eq_of_testBit_eq fun i => ?_
      rw [Nat.testBit_ldiff, Nat.testBit_two_pow_sub_one, Nat.testBit_two_pow_sub_succ (Nat.mod_lt _ (by norm_num)), Nat.testBit_mod_two_pow]
      by_cases hi : i < 53 <;> simp [hi]
    rw [h1]
    have hlt : n % 2 ^ 53 < 2 ^ 53 := Nat.mod_lt _ (by norm_num)
    have h3 : Int.negSucc n = -(n : ℤ) - 1 := by rw [Int.negSucc_eq]; ring
    rw [h3]
    omega

/-- **C67**: the result is an integer multiple `m` of `2⁻⁵³` with `0 ≤ m < 2⁵³`: it is in `[0, 1)` and representable. -/
theorem C67_exact (digest : List (Fin 256)) :
    ∃ a b : ℕ, a < 2 ^ 53 ∧ b < 2 ^ 53 ∧ uniform2 digest = ((a : ℝ) / 2 ^ 53, (b : ℝ) / 2 ^ 53) := by
  have key : ∀ z : ℤ, ∃ m : ℕ, m < 2 ^ 53 ∧ Int.land z mask = m := by
    intro z
    rw [land_mask]
    exact ⟨(z % 2 ^ 53).toNat, by omega, by omega⟩
  obtain ⟨a, ha, ea⟩ := key (signed64 (digest.take 8))
  obtain ⟨b, hb, eb⟩ := key (signed64 (digest.drop 8))
  refine ⟨a, b, ha, hb, ?_⟩
  unfold uniform2 masked
  rw [ea, eb]
  have : (2 : ℝ) ^ (-53 : ℤ) = 1 / 2 ^ 53 := by rw [zpow_neg]; norm_num
  rw [this]
  simp [div_eq_mul_inv]

/-- **C67**: `0 <= uniform < 1` for every digest. -/
theorem C67_uniform (digest : List (Fin 256)) : 0 ≤ uniform digest ∧ uniform digest < 1 := by
  obtain ⟨a, b, ha, _, h⟩ := C67_exact digest
  unfold uniform
  rw [h]
  constructor
  · positivity
  · rw [div_lt_one (by positivity)]
    exact_mod_cast ha

/-- **C67**: `gauss` never takes the logarithm of zero or of a negative number, nor the square root of a negative number. -/
theorem C67_gauss (digest : List (Fin 256)) : 0 < gaussLogArg digest ∧ 0 ≤ gaussSqrtArg digest := by
  obtain ⟨a, b, _, hb, h⟩ := C67_exact digest
  have hlt : (b : ℝ) / 2 ^ 53 < 1 := by
    rw [div_lt_one (by positivity)]
    exact_mod_cast hb
  have h0 : 0 ≤ (b : ℝ) / 2 ^ 53 := by positivity
  have h1 : gaussLogArg digest = 1 - b / 2 ^ 53 := by unfold gaussLogArg; rw [h]
  refine ⟨by rw [h1]; linarith, ?_⟩
  unfold gaussSqrtArg
  have : Real.log (gaussLogArg digest) ≤ 0 := Real.log_nonpos (by rw [h1]; linarith) (by rw [h1]; linarith)
  linarith

/-- **C67**: no value is preferred: every multiple of `2⁻⁵³` in `[0, 1)` comes from exactly `2¹¹` of the `2⁶⁴` first words of the
digest. -/
theorem C67_fair (m : ℕ) (hm : m < 2 ^ 53) (z : ℤ) (hz : -2 ^ 63 ≤ z ∧ z < 2 ^ 63) :
    Int.land z mask = m ↔ ∃ k : ℤ, -2 ^ 10 ≤ k ∧ k < 2 ^ 10 ∧ z = m + 2 ^ 53 * k := by
  rw [land_mask]
  constructor
  · intro h
    refine ⟨z / 2 ^ 53, ?_, ?_, ?_⟩ <;> omega
  · rintro ⟨k, _, _, rfl⟩
    omega

end Kwant.Digest
