import Verif.Linalg.SchurTrack
import Mathlib.Tactic.IntervalCases
import Mathlib.Tactic.NormNum

/-! # `convert_r2c_schur` (C160) -/

set_option linter.unusedSectionVars false

namespace Kwant.Schur

open Matrix

variable {n : ℕ}

theorem rot_nums {b c : ℝ} (h : b * c < 0) :
    (∃ s : ℝ, Real.sqrt (-b * c) = s ∧ 0 < s ∧ s * s = -b * c) ∧
    (∃ w : ℝ, Real.sqrt (-b * c + c * c) = w ∧ 0 < w ∧ w * w = -b * c + c * c) := by
  have h1 : 0 < -b * c := by linarith
  have h2 : 0 < -b * c + c * c := by nlinarith [mul_self_nonneg c]
  exact ⟨⟨_, rfl, Real.sqrt_pos.mpr h1, Real.mul_self_sqrt h1.le⟩,
    ⟨_, rfl, Real.sqrt_pos.mpr h2, Real.mul_self_sqrt h2.le⟩⟩

theorem rotU_unitary {b c : ℝ} (h : b * c < 0) : rotU b c ∈ unitaryGroup (Fin 2) ℂ := by
  obtain ⟨⟨s, es, s0, ss⟩, ⟨w, ew, w0, ww⟩⟩ := rot_nums h
  have wc : (w : ℂ) ≠ 0 := by exact_mod_cast w0.ne'
  have sq : (w : ℂ) * w = s * s + c * c := by
    have : w * w = s * s + c * c := by rw [ww, ss]
    exact_mod_cast this
  have key : ((s : ℂ) * s + c * c) / (w * w) = 1 := by
    rw [← sq]
    exact div_self (mul_ne_zero wc wc)
  have R : rotU b c = !![Complex.I * (s : ℂ) / w, -(c : ℂ) / w; (c : ℂ) / w,
      -(Complex.I * (s : ℂ)) / w] := by
    simp only [rotU]
    rw [es, ew]
  rw [mem_unitaryGroup_iff, R]
  ext x y
  rw [Matrix.star_eq_conjTranspose]
  have I2 : Complex.I * Complex.I = -1 := Complex.I_mul_I
  fin_cases x <;> fin_cases y <;>
    simp [Matrix.mul_apply, Fin.sum_univ_two]
  · rw [← key]
    field_simp
    linear_combination (-(s : ℂ) ^ 2) * I2
  · field_simp
    ring
  · field_simp
    ring
  · rw [← key]
    field_simp
    linear_combination (-(s : ℂ) ^ 2) * I2

theorem newBlock_eq {a b c : ℝ} (h : b * c < 0) {m : Arr ℂ} {i : ℕ}
    (hm : blk i m = !![(a : ℂ), b; c, a]) :
    newBlock a b c = (rotU b c)ᴴ * blk i m * rotU b c := by
  obtain ⟨⟨s, es, s0, ss⟩, ⟨w, ew, w0, ww⟩⟩ := rot_nums h
  have wc : (w : ℂ) ≠ 0 := by exact_mod_cast w0.ne'
  have sC : (s : ℂ) * s = -b * c := by exact_mod_cast ss
  have wC : (w : ℂ) * w = -b * c + c * c := by exact_mod_cast ww
  have I2 : Complex.I * Complex.I = -1 := Complex.I_mul_I
  have R : rotU b c = !![Complex.I * (s : ℂ) / w, -(c : ℂ) / w; (c : ℂ) / w,
      -(Complex.I * (s : ℂ)) / w] := by
    simp only [rotU]
    rw [es, ew]
  have R' : newBlock a b c = !![(a : ℂ) + Complex.I * (s : ℂ), -b - c; 0,
      a - Complex.I * (s : ℂ)] := by
    simp only [newBlock]
    rw [es]
  rw [hm, R, R']
  ext x y
  fin_cases x <;> fin_cases y <;>
    simp [Matrix.mul_apply, Fin.sum_univ_two]
  all_goals field_simp
  · linear_combination ((a : ℂ) + Complex.I * s) * wC - a * sC + a * (s : ℂ) ^ 2 * I2
  · linear_combination (-(b : ℂ) - c) * wC + b * sC - b * (s : ℂ) ^ 2 * I2
  · linear_combination (c : ℂ) * sC - c * (s : ℂ) ^ 2 * I2
  · linear_combination ((a : ℂ) - Complex.I * s) * wC - a * sC + a * (s : ℂ) ^ 2 * I2

/-- The blocks the loop writes. -/
noncomputable def convB (t : Arr ℝ) (i : ℕ) : Mat2 := newBlock (t i i) (t i (i + 1)) (t (i + 1) i)

theorem blk_toC {t : Arr ℝ} (S : RealSchur n t) {i : ℕ} (hi : i + 1 < n) (h : t (i + 1) i ≠ 0) :
    blk i (toC t) = !![(t i i : ℂ), t i (i + 1); t (i + 1) i, t i i] := by
  simp only [blk, toC, S.same i hi h]

theorem next_of_apart {t : Arr ℝ} (S : RealSchur n t) {i : ℕ} {done : List ℕ}
    (hi : i ∈ blockpos n t) (far : ∀ j ∈ done, j + 2 ≤ i) : Next n (toC t) done i := by
  rw [mem_blockpos] at hi
  refine ⟨hi.1, far, ?_, ?_⟩
  · intro j e
    subst e
    by_contra hc
    have : t (j + 1) j ≠ 0 := by
      intro z
      exact hc (by simp [toC, z])
    exact hi.2 (S.apart j hi.1 this)
  · intro h
    simp [toC, S.apart i h hi.2]

theorem conv_fold {t : Arr ℝ} (S : RealSchur n t) (q : Arr ℝ) (l : List ℕ)
    (hl : ∀ i ∈ l, i ∈ blockpos n t) (hp : l.Pairwise (fun i j => i + 2 ≤ j)) :
    Track n (toC t) (convB t) (l.foldl (convStep t) (toC t, toC q)).1 l ∧
    ∃ V ∈ unitaryGroup (Fin n) ℂ,
      mat n (l.foldl (convStep t) (toC t, toC q)).1 = Vᴴ * mat n (toC t) * V ∧
      mat n (l.foldl (convStep t) (toC t, toC q)).2 = mat n (toC q) * V := by
  induction l using List.reverseRecOn with
  | nil =>
    refine ⟨Track.init ?_, 1, one_mem _, by simp, by simp⟩
    intro r c hr hc
    simp [toC, S.lower r c hr hc]
  | append_singleton l i ih =>
    rw [List.pairwise_append] at hp
    obtain ⟨T, V, hV, e1, e2⟩ := ih (fun j hj => hl j (by simp [hj])) hp.1
    have hi : i ∈ blockpos n t := hl i (by simp)
    have N : Next n (toC t) l i := next_of_apart S hi (fun j hj => hp.2.2 j hj i (by simp))
    rw [mem_blockpos] at hi
    have hn := S.neg i hi.1 hi.2
    rw [List.foldl_append]
    simp only [List.foldl_cons, List.foldl_nil]
    generalize l.foldl (convStep t) (toC t, toC q) = st at T e1 e2
    have eB : newBlock (t i i) (t i (i + 1)) (t (i + 1) i) =
        (rotU (t i (i + 1)) (t (i + 1) i))ᴴ * blk i st.1 * rotU (t i (i + 1)) (t (i + 1) i) :=
      newBlock_eq hn (by rw [T.blk_eq N, blk_toC S hi.1 hi.2])
    refine ⟨?_, V * emb n i (rotU (t i (i + 1)) (t (i + 1) i)),
      mul_mem hV (emb_unitary hi.1 (rotU_unitary hn)), ?_, ?_⟩
    · exact T.step N (by simp [newBlock]) rfl
    · have h := mat_upd hi.1 (rotU (t i (i + 1)) (t (i + 1) i)) (rotU (t i (i + 1)) (t (i + 1) i))
        st.1 (T.below N) (T.before N) _ eB
      have h' : mat n (convStep t st i).1 = _ := h
      rw [h', e1, conjTranspose_mul]
      simp only [Matrix.mul_assoc]
    · have h := mat_setCols hi.1 (rotU (t i (i + 1)) (t (i + 1) i)) st.2
      have h' : mat n (convStep t st i).2 = _ := h
      rw [h', e2, Matrix.mul_assoc]

/-- **C160** (with 2x2 blocks).  For every real Schur form `t` in LAPACK's
canonical form and every orthogonal `q`, of any size, that has a 2x2 block,
`convert_r2c_schur(t, q)` returns complex arrays `(t2, q2)` such that `t2` is
upper triangular, `q2` is unitary, `q2 t2 q2^dagger = q t q^T` (both represent
the same matrix), and the diagonal of `t2` is, entry by entry, the list of
eigenvalues documented for `(t, q)`: the order of eigenvalues is kept, and in
place of a 2x2 block the one with positive imaginary part comes first. -/
theorem C160_convert (t q : Arr ℝ) (S : RealSchur n t)
    (hq : mat n q ∈ orthogonalGroup (Fin n) ℝ)
    (hb : ∃ i, i + 1 < n ∧ t (i + 1) i ≠ 0) :
    ∃ t2 q2 : Arr ℂ, convertR2C n t (some q) = .ok (.cplx t2 (some q2)) ∧
      UpperTri n t2 ∧
      mat n q2 ∈ unitaryGroup (Fin n) ℂ ∧
      mat n q2 * mat n t2 * (mat n q2)ᴴ =
        (mat n q * mat n t * (mat n q)ᵀ).map (fun x : ℝ => (x : ℂ)) ∧
      EigList n t (fun k => t2 k k) := by
  obtain ⟨i0, hi0⟩ := hb
  have hne : (blockpos n t).isEmpty = false := by
    cases hh : (blockpos n t) with
    | nil =>
      have := (mem_blockpos (n := n) (t := t)).mpr hi0
      rw [hh] at this
      simp at this
    | cons a l => rfl
  have hc : convertR2C n t (some q) = .ok (.cplx
      ((blockpos n t).foldl (convStep t) (toC t, toC q)).1
      (some ((blockpos n t).foldl (convStep t) (toC t, toC q)).2)) := by
    simp [convertR2C, hne]
  obtain ⟨T, V, hV, e1, e2⟩ := conv_fold S q (blockpos n t) (fun _ h => h)
    (blockpos_apart S.apart)
  generalize (blockpos n t).foldl (convStep t) (toC t, toC q) = st at hc T e1 e2
  have mq : mat n (toC q) = (mat n q).map (fun x : ℝ => (x : ℂ)) := rfl
  have mt : mat n (toC t) = (mat n t).map (fun x : ℝ => (x : ℂ)) := rfl
  have V1 : V * Vᴴ = 1 := mem_unitaryGroup_iff.mp hV
  have tq : (mat n (toC q))ᴴ = ((mat n q)ᵀ).map (fun x : ℝ => (x : ℂ)) := by
    ext x y
    simp [mat, toC]
  have mm : ∀ A B : Matrix (Fin n) (Fin n) ℝ, (A * B).map (fun x : ℝ => (x : ℂ)) =
      A.map (fun x : ℝ => (x : ℂ)) * B.map (fun x : ℝ => (x : ℂ)) := by
    intro A B
    exact Matrix.map_mul (f := Complex.ofRealHom)
  have qu : mat n (toC q) ∈ unitaryGroup (Fin n) ℂ := by
    rw [mem_unitaryGroup_iff, Matrix.star_eq_conjTranspose, tq, mq, ← mm]
    have := (mem_orthogonalGroup_iff (Fin n) ℝ).mp hq
    rw [this]
    ext x y
    by_cases h : x = y <;> simp [Matrix.one_apply, h]
  refine ⟨st.1, st.2, hc, ?_, ?_, ?_, ?_⟩
  · intro r c hr hrc
    by_cases h : c + 1 < r
    · exact T.low r c hr h
    · have e : r = c + 1 := by omega
      subst e
      rw [T.sub c hr]
      split_ifs with hm
      · rfl
      · rw [mem_blockpos] at hm
        have : t (c + 1) c = 0 := by
          by_contra hx
          exact hm ⟨hr, hx⟩
        simp [toC, this]
  · rw [e2]
    exact mul_mem qu hV
  · rw [e1, e2, mm, mm, ← tq, ← mq, ← mt, conjTranspose_mul]
    calc mat n (toC q) * V * (Vᴴ * mat n (toC t) * V) * (Vᴴ * (mat n (toC q))ᴴ)
        = mat n (toC q) * (V * Vᴴ) * mat n (toC t) * (V * Vᴴ) * (mat n (toC q))ᴴ := by
          simp only [Matrix.mul_assoc]
      _ = _ := by rw [V1]; simp
  · have n0 : ∀ i, i + 1 < n → t (i + 1) i ≠ 0 → st.1 i i =
        t i i + Complex.I * (Real.sqrt (-t i (i + 1) * t (i + 1) i) : ℝ) := by
      intro i h1 h2
      rw [T.new0 i (mem_blockpos.mpr ⟨h1, h2⟩)]
      simp [convB, newBlock]
    have n1 : ∀ i, i + 1 < n → t (i + 1) i ≠ 0 → st.1 (i + 1) (i + 1) =
        t i i - Complex.I * (Real.sqrt (-t i (i + 1) * t (i + 1) i) : ℝ) := by
      intro i h1 h2
      rw [T.new1 i (mem_blockpos.mpr ⟨h1, h2⟩)]
      simp [convB, newBlock]
    refine ⟨?_, ?_, ?_, ?_⟩
    · intro k hk h1 h2
      change st.1 k k = t k k
      rw [T.diag k hk]
      · rfl
      · rw [mem_blockpos]
        rintro ⟨a1, a2⟩
        exact a2 (h1 a1)
      · intro j hj e
        subst e
        rw [mem_blockpos] at hj
        exact hj.2 (h2 j rfl)
    · intro i h1 h2
      obtain ⟨⟨s, es, s0, ss⟩, _⟩ := rot_nums (S.neg i h1 h2)
      have sC : (s : ℂ) * s = -t i (i + 1) * t (i + 1) i := by exact_mod_cast ss
      change (st.1 i i - t i i) * (st.1 i i - t (i + 1) (i + 1)) = _
      rw [S.same i h1 h2, n0 i h1 h2, es]
      linear_combination (s : ℂ) ^ 2 * Complex.I_mul_I - sC
    · intro i h1 h2
      obtain ⟨⟨s, es, s0, ss⟩, _⟩ := rot_nums (S.neg i h1 h2)
      change 0 < (st.1 i i).im
      rw [n0 i h1 h2, es]
      simpa using s0
    · intro i h1 h2
      change st.1 (i + 1) (i + 1) = (starRingEnd ℂ) (st.1 i i)
      rw [n0 i h1 h2, n1 i h1 h2]
      simp [sub_eq_add_neg]

/-- **C160** (no 2x2 block): the input is returned unchanged, still real. -/
theorem C160_unchanged (t : Arr ℝ) (q : Option (Arr ℝ)) (h : ∀ i, i + 1 < n → t (i + 1) i = 0) :
    convertR2C n t q = .ok (.real t q) := by
  have : blockpos n t = [] := by
    rw [List.eq_nil_iff_forall_not_mem]
    intro i hi
    rw [mem_blockpos] at hi
    exact hi.2 (h i hi.1)
  simp [convertR2C, this]

/-- A real Schur form of size 4 with a 2x2 block between two
real eigenvalues. -/
def exT : Arr ℝ := fun r c =>
  if r = 0 ∧ c = 0 then 7 else if r = 0 then 2 else
  if r = 1 ∧ c = 1 then 3 else if r = 2 ∧ c = 2 then 3 else
  if r = 1 ∧ c = 2 then -4 else if r = 2 ∧ c = 1 then 1 else
  if r = 3 ∧ c = 3 then 5 else if c = 3 ∧ r < 3 then 1 else 0

theorem exT_schur : RealSchur 4 exT := by
  refine ⟨?_, ?_, ?_, ?_⟩
  · intro r c hr hc
    have hc' : c < 4 := by omega
    interval_cases r <;> interval_cases c <;> simp_all [exT]
  · intro i hi
    have hi' : i < 3 := by omega
    interval_cases i <;> simp_all [exT]
  · intro i hi
    have hi' : i < 3 := by omega
    interval_cases i <;> simp_all [exT]
  · intro i hi
    have hi' : i < 3 := by omega
    interval_cases i <;> simp_all [exT]

/-- The hypotheses of C160 are met by a concrete case with a block and real
eigenvalues around it; its block yields the eigenvalue `3 + 2i`. -/
example : ∃ t2 q2 : Arr ℂ, convertR2C 4 exT (some (fun r c => if r = c then 1 else 0)) =
      .ok (.cplx t2 (some q2)) ∧
    UpperTri 4 t2 ∧ (t2 1 1 - 3) * (t2 1 1 - 3) = -4 ∧ 0 < (t2 1 1).im ∧ t2 0 0 = 7 := by
  have ho : mat 4 (fun r c => if r = c then (1 : ℝ) else 0) ∈ orthogonalGroup (Fin 4) ℝ := by
    have : mat 4 (fun r c => if r = c then (1 : ℝ) else 0) = 1 := by
      ext x y
      simp [mat, Matrix.one_apply, Fin.ext_iff]
    rw [this]
    exact one_mem _
  obtain ⟨t2, q2, h1, h2, _, _, E⟩ := C160_convert exT _ exT_schur ho ⟨1, by norm_num, by simp [exT]⟩
  have r := E.root 1 (by norm_num) (by simp [exT])
  have p := E.pos 1 (by norm_num) (by simp [exT])
  have s := E.single 0 (by norm_num) (by simp [exT]) (by simp)
  refine ⟨t2, q2, h1, h2, ?_, p, ?_⟩
  · simpa [exT] using r
  · simpa [exT] using s

end Kwant.Schur
