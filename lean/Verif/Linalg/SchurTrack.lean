import Verif.Linalg.SchurBlock

/-! # What the loop over the 2x2 blocks keeps -/

set_option linter.unusedSectionVars false

namespace Kwant.Schur

open Matrix

section blocks
variable {K : Type} [Zero K] [DecidableEq K] {n : ℕ} {t : Arr K}

theorem mem_blockpos {i : ℕ} : i ∈ blockpos n t ↔ i + 1 < n ∧ t (i + 1) i ≠ 0 := by
  simp only [blockpos, List.mem_filter, List.mem_range, decide_eq_true_eq]
  constructor
  · rintro ⟨h1, h2⟩
    exact ⟨by omega, h2⟩
  · rintro ⟨h1, h2⟩
    exact ⟨by omega, h2⟩

theorem blockpos_apart (ap : ∀ i, i + 2 < n → t (i + 1) i ≠ 0 → t (i + 2) (i + 1) = 0) :
    (blockpos n t).Pairwise (fun i j => i + 2 ≤ j) := by
  have h : (blockpos n t).Pairwise (· < ·) := List.pairwise_lt_range.filter _
  apply List.Pairwise.imp_of_mem ?_ h
  intro i j hi hj hij
  rw [mem_blockpos] at hi hj
  by_contra hc
  have e : j = i + 1 := by omega
  subst e
  exact hj.2 (ap i hj.1 hi.2)

end blocks

/-- What is known about an array while the blocks in `done` have been treated. -/
structure Track (n : ℕ) (m0 : Arr ℂ) (B : ℕ → Mat2) (m : Arr ℂ) (done : List ℕ) : Prop where
  low : ∀ r c, r < n → c + 1 < r → m r c = 0
  sub : ∀ c, c + 1 < n → m (c + 1) c = if c ∈ done then 0 else m0 (c + 1) c
  diag : ∀ k, k < n → k ∉ done → (∀ j ∈ done, k ≠ j + 1) → m k k = m0 k k
  sup : ∀ j, j + 1 < n → (∀ i ∈ done, j ≠ i ∧ j ≠ i + 1 ∧ j + 1 ≠ i) → m j (j + 1) = m0 j (j + 1)
  new0 : ∀ i ∈ done, m i i = B i 0 0
  new1 : ∀ i ∈ done, m (i + 1) (i + 1) = B i 1 1

variable {n : ℕ} {m0 : Arr ℂ} {B : ℕ → Mat2} {m : Arr ℂ} {done : List ℕ}

theorem Track.init (h : ∀ r c, r < n → c + 1 < r → m0 r c = 0) : Track n m0 B m0 [] where
  low := h
  sub := by simp
  diag := by simp
  sup := by simp
  new0 := by simp
  new1 := by simp

/-- Position `i` may be treated next. -/
structure Next (n : ℕ) (m0 : Arr ℂ) (done : List ℕ) (i : ℕ) : Prop where
  lt : i + 1 < n
  far : ∀ j ∈ done, j + 2 ≤ i
  before : ∀ j, j + 1 = i → m0 i j = 0
  after : i + 2 < n → m0 (i + 2) (i + 1) = 0

theorem Track.below (T : Track n m0 B m done) {i : ℕ} (N : Next n m0 done i) :
    ∀ a c, a < n → (c = i ∨ c = i + 1) → i + 2 ≤ a → m a c = 0 := by
  intro a c ha hc hia
  by_cases h : c + 1 < a
  · exact T.low a c ha h
  · have e1 : c = i + 1 := by omega
    have e2 : a = i + 2 := by omega
    subst e1 e2
    rw [T.sub (i + 1) ha, N.after ha]
    split_ifs <;> rfl

theorem Track.before (T : Track n m0 B m done) {i : ℕ} (N : Next n m0 done i) :
    ∀ a c, a < n → (a = i ∨ a = i + 1) → c < i → m a c = 0 := by
  intro a c ha hc hia
  by_cases h : c + 1 < a
  · exact T.low a c ha h
  · have e1 : a = c + 1 := by omega
    have e2 : i = c + 1 := by omega
    rw [e1, T.sub c (by omega), ← e2, N.before c e2.symm]
    split_ifs <;> rfl

theorem Track.blk_eq (T : Track n m0 B m done) {i : ℕ} (N : Next n m0 done i) :
    blk i m = blk i m0 := by
  have hlt := N.lt
  have f : ∀ j ∈ done, j + 2 ≤ i := N.far
  have nd : i ∉ done := fun h => by have := f i h; omega
  have nd1 : i + 1 ∉ done := fun h => by have := f _ h; omega
  have a00 : m i i = m0 i i := T.diag i (by omega) nd (fun j hj e => by have := f j hj; omega)
  have a11 : m (i + 1) (i + 1) = m0 (i + 1) (i + 1) :=
    T.diag (i + 1) hlt nd1 (fun j hj e => by have := f j hj; omega)
  have a10 : m (i + 1) i = m0 (i + 1) i := by rw [T.sub i hlt, if_neg nd]
  have a01 : m i (i + 1) = m0 i (i + 1) :=
    T.sup i hlt (fun j hj => by have := f j hj; omega)
  simp only [blk, a00, a11, a10, a01]

theorem upd_other {i : ℕ} {b l r : Mat2} {m : Arr ℂ} {x y : ℕ} (h : i + 2 ≤ x ∨ y < i) :
    upd i b l r m x y = m x y := by
  have e1 : (x = i ∧ y = i) = False := by simp; omega
  have e2 : (x = i + 1 ∧ y = i) = False := by simp; omega
  have e3 : (x = i ∧ y = i + 1) = False := by simp; omega
  have e4 : (x = i + 1 ∧ y = i + 1) = False := by simp; omega
  rcases h with h | h
  · have h1 : ¬ x = i := by omega
    have h2 : ¬ x = i + 1 := by omega
    have h3 : ¬ x < i := by omega
    simp [upd, mulRight, mulAbove, setBlock, h1, h2, h3]
  · have h1 : ¬ y = i := by omega
    have h2 : ¬ y = i + 1 := by omega
    have h3 : ¬ i + 2 ≤ y := by omega
    simp [upd, mulRight, mulAbove, setBlock, h1, h2, h3]

theorem upd_apart {i : ℕ} {b l r : Mat2} {m : Arr ℂ} {x y : ℕ}
    (hx : x ≠ i ∧ x ≠ i + 1) (hy : y ≠ i ∧ y ≠ i + 1) : upd i b l r m x y = m x y := by
  simp [upd, mulRight, mulAbove, setBlock, hx.1, hx.2, hy.1, hy.2]

theorem upd_blk {i : ℕ} {b l r : Mat2} {m : Arr ℂ} : blk i (upd i b l r m) = b := by
  ext x y
  fin_cases x <;> fin_cases y <;> simp [blk, upd, mulRight, mulAbove, setBlock]

theorem Track.step (T : Track n m0 B m done) {i : ℕ} (N : Next n m0 done i) {b l r : Mat2}
    (hb : b 1 0 = 0) (hB : B i = b) : Track n m0 B (upd i b l r m) (done ++ [i]) := by
  have hlt := N.lt
  have f : ∀ j ∈ done, j + 2 ≤ i := N.far
  have U : blk i (upd i b l r m) = b := upd_blk
  have u00 : upd i b l r m i i = b 0 0 := congrFun (congrFun U 0) 0
  have u10 : upd i b l r m (i + 1) i = b 1 0 := congrFun (congrFun U 1) 0
  have u11 : upd i b l r m (i + 1) (i + 1) = b 1 1 := congrFun (congrFun U 1) 1
  refine ⟨?_, ?_, ?_, ?_, ?_, ?_⟩
  · intro x y hx hxy
    by_cases h : i + 2 ≤ x ∨ y < i
    · rw [upd_other h, T.low x y hx hxy]
    · omega
  · intro c hc
    by_cases e : c = i
    · subst e
      rw [u10, hb, if_pos (by simp)]
    · rw [upd_other (by omega), T.sub c hc]
      simp [e]
  · intro k hk h1 h2
    simp only [List.mem_append, List.mem_singleton, not_or] at h1
    have h3 : k ≠ i + 1 := h2 i (by simp)
    rw [upd_apart ⟨h1.2, h3⟩ ⟨h1.2, h3⟩]
    exact T.diag k hk h1.1 (fun j hj => h2 j (by simp [hj]))
  · intro j hj h
    have hi := h i (by simp)
    rw [upd_apart ⟨hi.1, hi.2.1⟩ ⟨hi.2.2, by omega⟩]
    exact T.sup j hj (fun a ha => h a (by simp [ha]))
  · intro a ha
    simp only [List.mem_append, List.mem_singleton] at ha
    rcases ha with ha | ha
    · have := f a ha
      rw [upd_other (by omega), T.new0 a ha]
    · subst ha
      rw [u00, hB]
  · intro a ha
    simp only [List.mem_append, List.mem_singleton] at ha
    rcases ha with ha | ha
    · have := f a ha
      rw [upd_other (by omega), T.new1 a ha]
    · subst ha
      rw [u11, hB]

/-- A 2x2 unitary block embedded into a unit matrix is unitary. -/
theorem emb_unitary {i : ℕ} (hi : i + 1 < n) {u : Mat2} (hu : u ∈ unitaryGroup (Fin 2) ℂ) :
    emb n i u ∈ unitaryGroup (Fin n) ℂ := by
  rw [mem_unitaryGroup_iff] at hu ⊢
  have e : star (emb n i u) = emb n i (star u) := emb_conjTranspose n i u
  rw [e, emb_mul_emb hi, hu, emb_one]

end Kwant.Schur
