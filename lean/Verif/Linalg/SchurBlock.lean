import Verif.Linalg.SchurModel
import Mathlib.Tactic.LinearCombination
import Mathlib.Tactic.FieldSimp
import Mathlib.Tactic.Linarith

/-! # Updating one 2x2 block is a similarity transformation -/

set_option linter.unusedSectionVars false

namespace Kwant.Schur

open Matrix

/-- The unit matrix with `u` in rows and columns `i`, `i+1`. -/
def emb (n i : ℕ) (u : Mat2) : Matrix (Fin n) (Fin n) ℂ := Matrix.of fun r c =>
  if r.val = i ∧ c.val = i then u 0 0 else
  if r.val = i + 1 ∧ c.val = i then u 1 0 else
  if r.val = i ∧ c.val = i + 1 then u 0 1 else
  if r.val = i + 1 ∧ c.val = i + 1 then u 1 1 else
  if r = c then 1 else 0

theorem sum_two {n i : ℕ} (hi : i + 1 < n) (f : Fin n → ℂ)
    (h : ∀ k : Fin n, k.val ≠ i → k.val ≠ i + 1 → f k = 0) :
    ∑ k, f k = f ⟨i, by omega⟩ + f ⟨i + 1, hi⟩ := by
  apply Fintype.sum_eq_add
  · intro e
    simp at e
  · intro k hk
    refine h k ?_ ?_
    · intro e; exact hk.1 (Fin.ext e)
    · intro e; exact hk.2 (Fin.ext e)

theorem mul_emb {n i : ℕ} (hi : i + 1 < n) (u : Mat2) (m : Matrix (Fin n) (Fin n) ℂ)
    (r c : Fin n) :
    (m * emb n i u) r c =
      if c.val = i then m r ⟨i, by omega⟩ * u 0 0 + m r ⟨i + 1, hi⟩ * u 1 0
      else if c.val = i + 1 then m r ⟨i, by omega⟩ * u 0 1 + m r ⟨i + 1, hi⟩ * u 1 1
      else m r c := by
  rw [Matrix.mul_apply]
  by_cases h1 : c.val = i
  · rw [if_pos h1, sum_two hi]
    · simp [emb, h1]
    · intro k k1 k2
      have : k ≠ c := fun e => k1 (by rw [e]; exact h1)
      simp [emb, k1, k2, this]
  · by_cases h2 : c.val = i + 1
    · rw [if_neg h1, if_pos h2, sum_two hi]
      · simp [emb, h2]
      · intro k k1 k2
        have : k ≠ c := fun e => k2 (by rw [e]; exact h2)
        simp [emb, k1, k2, this]
    · rw [if_neg h1, if_neg h2, Finset.sum_eq_single c]
      · simp [emb, h1, h2]
      · intro k _ hk
        simp [emb, h1, h2, hk]
      · simp

theorem emb_conjTranspose (n i : ℕ) (u : Mat2) : (emb n i u)ᴴ = emb n i uᴴ := by
  ext r c
  simp only [conjTranspose_apply, emb, Matrix.of_apply]
  by_cases h1 : r.val = i <;> by_cases h2 : c.val = i <;> by_cases h3 : r.val = i + 1 <;>
    by_cases h4 : c.val = i + 1 <;>
    first
      | (exfalso; omega)
      | (simp [h1, h2, h3, h4])
      | (simp only [h1, h2, h3, h4]
         by_cases h5 : c = r
         · simp [h5]
         · simp [h5, Ne.symm h5, fun e : r = c => h5 e.symm])
      | skip
  all_goals (rcases eq_or_ne c r with h5 | h5 <;> [simp [h5]; simp [h5, h5.symm]])

theorem emb_mul_emb {n i : ℕ} (hi : i + 1 < n) (u v : Mat2) :
    emb n i u * emb n i v = emb n i (u * v) := by
  ext r c
  rw [mul_emb hi]
  by_cases h2 : c.val = i <;> by_cases h4 : c.val = i + 1 <;>
    by_cases h1 : r.val = i <;> by_cases h3 : r.val = i + 1 <;>
    first
      | (exfalso; omega)
      | (simp [emb, h1, h2, h3, h4, Matrix.mul_apply, Fin.sum_univ_two, Fin.ext_iff])
  all_goals first | omega | (simp_all)

theorem emb_one (n i : ℕ) : emb n i 1 = 1 := by
  ext r c
  simp only [emb, Matrix.of_apply, Matrix.one_apply, Fin.ext_iff]
  by_cases h1 : r.val = i <;> by_cases h2 : c.val = i <;> by_cases h3 : r.val = i + 1 <;>
    by_cases h4 : c.val = i + 1 <;> simp [h1, h2, h3, h4] <;> omega

theorem emb_mul {n i : ℕ} (hi : i + 1 < n) (u : Mat2) (m : Matrix (Fin n) (Fin n) ℂ)
    (r c : Fin n) :
    (emb n i u * m) r c =
      if r.val = i then u 0 0 * m ⟨i, by omega⟩ c + u 0 1 * m ⟨i + 1, hi⟩ c
      else if r.val = i + 1 then u 1 0 * m ⟨i, by omega⟩ c + u 1 1 * m ⟨i + 1, hi⟩ c
      else m r c := by
  have h := congrArg star (mul_emb hi uᴴ mᴴ c r)
  have e : (mᴴ * emb n i uᴴ) c r = star ((emb n i u * m) r c) := by
    rw [← emb_conjTranspose, ← conjTranspose_mul, conjTranspose_apply]
  rw [e, star_star] at h
  rw [h]
  split_ifs <;> simp [mul_comm]

/-- `setCols` multiplies by the embedded block. -/
theorem mat_setCols {n i : ℕ} (hi : i + 1 < n) (u : Mat2) (m : Arr ℂ) :
    mat n (setCols i u m m) = mat n m * emb n i u := by
  ext r c
  rw [mul_emb hi]
  simp [mat, setCols]

/-- The update of the block, of what is above it and of what is right of it. -/
def upd (i : ℕ) (b l r : Mat2) (m : Arr ℂ) : Arr ℂ :=
  mulRight i lᴴ (mulAbove i r (setBlock i b m))

/-- The current block. -/
def blk {K : Type} (i : ℕ) (m : Arr K) : Matrix (Fin 2) (Fin 2) K :=
  !![m i i, m i (i + 1); m (i + 1) i, m (i + 1) (i + 1)]

theorem mat_upd {n i : ℕ} (hi : i + 1 < n) (l r : Mat2) (m : Arr ℂ)
    (hb : ∀ a c, a < n → (c = i ∨ c = i + 1) → i + 2 ≤ a → m a c = 0)
    (ha : ∀ a c, a < n → (a = i ∨ a = i + 1) → c < i → m a c = 0)
    (b : Mat2) (hB : b = lᴴ * blk i m * r) :
    mat n (upd i b l r m) = (emb n i l)ᴴ * mat n m * emb n i r := by
  subst hB
  ext x y
  rw [mul_emb hi, emb_conjTranspose]
  simp only [emb_mul hi]
  have hi0 : i < n := by omega
  by_cases y1 : y.val = i <;> by_cases y2 : y.val = i + 1 <;>
    by_cases x1 : x.val = i <;> by_cases x2 : x.val = i + 1 <;>
    first
      | (exfalso; omega)
      | (simp [mat, upd, mulRight, mulAbove, setBlock, blk, x1, x2, y1, y2, Matrix.mul_apply,
          Fin.sum_univ_two]
         done)
      | skip
  · have z1 := hb x i x.2 (Or.inl rfl)
    have z2 := hb x (i + 1) x.2 (Or.inr rfl)
    by_cases hx : x.val < i
    · simp [mat, upd, mulRight, mulAbove, setBlock, x1, x2, y1, hx]
    · simp [mat, upd, mulRight, mulAbove, setBlock, x1, x2, y1, hx, z1 (by omega), z2 (by omega)]
  · have z1 := hb x i x.2 (Or.inl rfl)
    have z2 := hb x (i + 1) x.2 (Or.inr rfl)
    by_cases hx : x.val < i
    · simp [mat, upd, mulRight, mulAbove, setBlock, x1, x2, y2, hx]
    · simp [mat, upd, mulRight, mulAbove, setBlock, x1, x2, y2, hx, z1 (by omega), z2 (by omega)]
  · have z1 := ha i y hi0 (Or.inl rfl)
    have z2 := ha (i + 1) y hi (Or.inr rfl)
    by_cases hy : i + 2 ≤ y.val
    · simp [mat, upd, mulRight, mulAbove, setBlock, x1, y1, y2, hy]
    · simp [mat, upd, mulRight, mulAbove, setBlock, x1, y1, y2, hy, z1 (by omega), z2 (by omega)]
  · have z1 := ha i y hi0 (Or.inl rfl)
    have z2 := ha (i + 1) y hi (Or.inr rfl)
    by_cases hy : i + 2 ≤ y.val
    · simp [mat, upd, mulRight, mulAbove, setBlock, x2, y1, y2, hy]
    · simp [mat, upd, mulRight, mulAbove, setBlock, x2, y1, y2, hy, z1 (by omega), z2 (by omega)]

end Kwant.Schur
