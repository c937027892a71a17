import Verif.Linalg.GenSchurModel

/-! # `convert_r2c_gen_schur` (C162) -/

set_option linter.unusedSectionVars false

namespace Kwant.Schur

open Matrix

/-- The four arrays are a complex generalized Schur form of the 2x2 pencil. -/
structure Four.Good (S T : Mat2) (b : Four) : Prop where
  uq : b.qb ∈ unitaryGroup (Fin 2) ℂ
  uz : b.zb ∈ unitaryGroup (Fin 2) ℂ
  hs : b.qb * b.sb * b.zbᴴ = S
  ht : b.qb * b.tb * b.zbᴴ = T
  ls : b.sb 1 0 = 0
  lt : b.tb 1 0 = 0
  nn : ∀ k, ∃ x : ℝ, 0 ≤ x ∧ b.tb k k = x

/-- What is needed of the reordering of a 2x2 block. -/
def Ord2OK (ord2 : Four → Except Err Four) : Prop :=
  ∀ S T b, b.Good S T → ord2 b = .error .linAlg ∨
    ∃ b', ord2 b = .ok b' ∧ b'.Good S T ∧
      SameEig (b'.sb 0 0) (b'.tb 0 0) (b.sb 1 1) (b.tb 1 1) ∧
      SameEig (b'.sb 1 1) (b'.tb 1 1) (b.sb 0 0) (b.tb 0 0)

variable {S T : Mat2} {b : Four}

theorem Four.Good.det (h : b.Good S T) :
    ∃ c : ℂ, c ≠ 0 ∧ T.det = c * (b.tb 0 0 * b.tb 1 1) ∧ ∀ x : ℂ, (S - x • T).det =
      c * ((b.sb 0 0 - x * b.tb 0 0) * (b.sb 1 1 - x * b.tb 1 1)) := by
  have d1 : b.qb.det ≠ 0 := by
    intro e
    have := congrArg Matrix.det (mem_unitaryGroup_iff.mp h.uq)
    simp [e] at this
  have d2 : b.zbᴴ.det ≠ 0 := by
    intro e
    have := congrArg Matrix.det (mem_unitaryGroup_iff.mp h.uz)
    rw [Matrix.star_eq_conjTranspose, Matrix.det_mul, e] at this
    simp at this
  refine ⟨b.qb.det * b.zbᴴ.det, mul_ne_zero d1 d2, ?_, ?_⟩
  · rw [← h.ht, Matrix.det_mul, Matrix.det_mul, Matrix.det_fin_two b.tb, h.lt]
    ring
  · intro x
    have e : S - x • T = b.qb * (b.sb - x • b.tb) * b.zbᴴ := by
      rw [← h.hs, ← h.ht, Matrix.mul_sub, Matrix.sub_mul, Matrix.mul_smul, Matrix.smul_mul]
    rw [e, Matrix.det_mul, Matrix.det_mul, Matrix.det_fin_two (b.sb - x • b.tb)]
    simp only [Matrix.sub_apply, Matrix.smul_apply, smul_eq_mul, h.ls, h.lt]
    ring

theorem Four.Good.eq_s (h : b.Good S T) : b.sb = b.qbᴴ * S * b.zb := by
  have a1 : b.qbᴴ * b.qb = 1 := mem_unitaryGroup_iff'.mp h.uq
  have a2 : b.zbᴴ * b.zb = 1 := mem_unitaryGroup_iff'.mp h.uz
  rw [← h.hs]
  calc b.sb = (b.qbᴴ * b.qb) * b.sb * (b.zbᴴ * b.zb) := by rw [a1, a2]; simp
    _ = _ := by simp only [Matrix.mul_assoc]

theorem Four.Good.eq_t (h : b.Good S T) : b.tb = b.qbᴴ * T * b.zb := by
  have a1 : b.qbᴴ * b.qb = 1 := mem_unitaryGroup_iff'.mp h.uq
  have a2 : b.zbᴴ * b.zb = 1 := mem_unitaryGroup_iff'.mp h.uz
  rw [← h.ht]
  calc b.tb = (b.qbᴴ * b.qb) * b.tb * (b.zbᴴ * b.zb) := by rw [a1, a2]; simp
    _ = _ := by simp only [Matrix.mul_assoc]

theorem pdet_eq (s t : Arr ℝ) (i : ℕ) (x : ℂ) :
    pdet s t i x = (blk i (toC s) - x • blk i (toC t)).det := by
  rw [Matrix.det_fin_two]
  simp [pdet, blk, toC]

theorem pdet_conj (s t : Arr ℝ) (i : ℕ) (x : ℂ) :
    pdet s t i ((starRingEnd ℂ) x) = (starRingEnd ℂ) (pdet s t i x) := by
  simp [pdet]

variable {n : ℕ} {s t : Arr ℝ}

/-- The eigenvalues of a converted block are complex conjugates of each other. -/
theorem eig2 (R : RealGSchur n s t) {i : ℕ} (hi : i + 1 < n) (hb : s (i + 1) i ≠ 0)
    (h : b.Good (blk i (toC s)) (blk i (toC t))) :
    ∃ (z : ℂ) (x0 x1 : ℝ), 0 < x0 ∧ 0 < x1 ∧ b.tb 0 0 = x0 ∧ b.tb 1 1 = x1 ∧
      b.sb 0 0 = z * x0 ∧ b.sb 1 1 = (starRingEnd ℂ) z * x1 ∧ z.im ≠ 0 ∧ pdet s t i z = 0 := by
  obtain ⟨c, hc, dT, dS⟩ := h.det
  obtain ⟨x0, p0, e0⟩ := h.nn 0
  obtain ⟨x1, p1, e1⟩ := h.nn 1
  have tl : t (i + 1) i = 0 := R.upper _ _ hi (by omega)
  have dT' : (blk i (toC t)).det = (t i i * t (i + 1) (i + 1) : ℝ) := by
    rw [Matrix.det_fin_two]
    simp [blk, toC, tl]
  have tne : (t i i * t (i + 1) (i + 1) : ℝ) ≠ 0 :=
    mul_ne_zero (R.pos0 i hi hb).ne' (R.pos1 i hi hb).ne'
  have xx : (x0 : ℂ) * x1 ≠ 0 := by
    intro e
    rw [dT', e0, e1, e, mul_zero] at dT
    exact tne (by exact_mod_cast dT)
  have y0 : (x0 : ℂ) ≠ 0 := left_ne_zero_of_mul xx
  have y1 : (x1 : ℂ) ≠ 0 := right_ne_zero_of_mul xx
  have q0 : 0 < x0 := lt_of_le_of_ne p0 (fun e => y0 (by rw [← e]; simp))
  have q1 : 0 < x1 := lt_of_le_of_ne p1 (fun e => y1 (by rw [← e]; simp))
  have root : ∀ x : ℂ, pdet s t i x = 0 ↔ x = b.sb 0 0 / x0 ∨ x = b.sb 1 1 / x1 := by
    intro x
    rw [pdet_eq, dS, e0, e1, mul_eq_zero, mul_eq_zero]
    constructor
    · rintro (h | h | h)
      · exact absurd h hc
      · left
        rw [eq_div_iff y0]
        exact (sub_eq_zero.mp h).symm
      · right
        rw [eq_div_iff y1]
        exact (sub_eq_zero.mp h).symm
    · rintro (h | h)
      · right; left
        rw [h, div_mul_cancel₀ _ y0, sub_self]
      · right; right
        rw [h, div_mul_cancel₀ _ y1, sub_self]
  have r0 : pdet s t i (b.sb 0 0 / x0) = 0 := (root _).mpr (Or.inl rfl)
  have nr : (b.sb 0 0 / x0).im ≠ 0 := by
    intro e
    apply R.nonreal i hi hb (b.sb 0 0 / x0).re
    have : (((b.sb 0 0 / x0).re : ℝ) : ℂ) = b.sb 0 0 / x0 := by
      apply Complex.ext
      · simp
      · rw [e]; simp
    rw [this]
    exact r0
  have rc : pdet s t i ((starRingEnd ℂ) (b.sb 0 0 / x0)) = 0 := by
    rw [pdet_conj, r0]
    simp
  refine ⟨b.sb 0 0 / x0, x0, x1, q0, q1, e0, e1, ?_, ?_, nr, r0⟩
  · rw [div_mul_cancel₀ _ y0]
  · rcases (root _).mp rc with h | h
    · exfalso
      have := congrArg Complex.im h
      rw [Complex.conj_im] at this
      apply nr
      linarith
    · rw [h, div_mul_cancel₀ _ y1]

/-- What holds for a converted block. -/
structure BlockDone (s t : Arr ℝ) (i : ℕ) (b : Four) : Prop where
  good : b.Good (blk i (toC s)) (blk i (toC t))
  fin0 : b.tb 0 0 ≠ 0
  fin1 : b.tb 1 1 ≠ 0
  root : pdet s t i (b.sb 0 0 / b.tb 0 0) = 0
  pos : 0 < (b.sb 0 0 / b.tb 0 0).im
  conj : b.sb 1 1 / b.tb 1 1 = (starRingEnd ℂ) (b.sb 0 0 / b.tb 0 0)

theorem conv2_ok {G : Gges2} (hG : GgesOK G) {ord2 : Four → Except Err Four} (hO : Ord2OK ord2)
    (R : RealGSchur n s t) {i : ℕ} (hi : i + 1 < n) (hb : s (i + 1) i ≠ 0) :
    conv2 G ord2 (blk i (toC s)) (blk i (toC t)) = .error .linAlg ∨
    ∃ b, conv2 G ord2 (blk i (toC s)) (blk i (toC t)) = .ok b ∧ BlockDone s t i b := by
  cases hg : G (blk i (toC s)) (blk i (toC t)) with
  | none => left; simp [conv2, hg]
  | some r =>
    obtain ⟨sb, tb, qb, zb, al⟩ := r
    obtain ⟨u1, u2, h1, h2, l1, l2, ha, hn⟩ := hG _ _ _ _ _ _ _ hg
    have good : Four.Good (blk i (toC s)) (blk i (toC t)) ⟨sb, tb, qb, zb⟩ :=
      ⟨u1, u2, h1, h2, l1, l2, hn⟩
    obtain ⟨z, x0, x1, p0, p1, e0, e1, f0, f1, nz, r0⟩ := eig2 R hi hb good
    simp only at e0 e1 f0 f1
    have y0 : (x0 : ℂ) ≠ 0 := by exact_mod_cast p0.ne'
    have y1 : (x1 : ℂ) ≠ 0 := by exact_mod_cast p1.ne'
    have i0 : (al 0).im = z.im * x0 := by rw [ha, f0]; simp
    have i1 : (al 1).im = -z.im * x1 := by rw [ha, f1]; simp
    by_cases hc : (al 0).im < (al 1).im
    · have zn : z.im < 0 := by
        rw [i0, i1] at hc
        by_contra hx
        push Not at hx
        nlinarith [mul_nonneg hx p0.le, mul_nonneg hx p1.le]
      have ec : conv2 G ord2 (blk i (toC s)) (blk i (toC t)) = ord2 ⟨sb, tb, qb, zb⟩ := by
        simp [conv2, hg, hc]
      rw [ec]
      rcases hO _ _ _ good with h | ⟨b', eb, g', s0, s1⟩
      · left; exact h
      · right
        refine ⟨b', eb, ?_⟩
        obtain ⟨z', x0', x1', p0', p1', e0', e1', f0', f1', nz', r0'⟩ := eig2 R hi hb g'
        have y0' : (x0' : ℂ) ≠ 0 := by exact_mod_cast p0'.ne'
        have y1' : (x1' : ℂ) ≠ 0 := by exact_mod_cast p1'.ne'
        have zz : z' = (starRingEnd ℂ) z := by
          have := s0.1
          simp only [e1, f1] at this
          rw [e0', f0'] at this
          have h3 : (z' - (starRingEnd ℂ) z) * ((x0' : ℂ) * x1) = 0 := by
            linear_combination this
          rcases mul_eq_zero.mp h3 with h3 | h3
          · exact sub_eq_zero.mp h3
          · exact absurd h3 (mul_ne_zero y0' y1)
        have q0 : b'.sb 0 0 / b'.tb 0 0 = z' := by rw [e0', f0', mul_div_cancel_right₀ _ y0']
        have q1 : b'.sb 1 1 / b'.tb 1 1 = (starRingEnd ℂ) z' := by
          rw [e1', f1', mul_div_cancel_right₀ _ y1']
        refine ⟨g', by rw [e0']; exact y0', by rw [e1']; exact y1', by rw [q0]; exact r0', ?_, ?_⟩
        · rw [q0, zz, Complex.conj_im]
          linarith
        · rw [q0, q1]
    · have zp : 0 < z.im := by
        rw [i0, i1] at hc
        rcases lt_or_gt_of_ne nz with h | h
        · exfalso
          apply hc
          nlinarith [mul_pos_of_neg_of_neg h (neg_neg_of_pos p0), mul_pos_of_neg_of_neg h (neg_neg_of_pos p1)]
        · exact h
      right
      refine ⟨⟨sb, tb, qb, zb⟩, by simp [conv2, hg, hc], ?_⟩
      have q0 : sb 0 0 / tb 0 0 = z := by rw [e0, f0, mul_div_cancel_right₀ _ y0]
      have q1 : sb 1 1 / tb 1 1 = (starRingEnd ℂ) z := by
        rw [e1, f1, mul_div_cancel_right₀ _ y1]
      refine ⟨good, ?_, ?_, ?_, ?_, ?_⟩
      · change tb 0 0 ≠ 0
        rw [e0]; exact y0
      · change tb 1 1 ≠ 0
        rw [e1]; exact y1
      · change pdet s t i (sb 0 0 / tb 0 0) = 0
        rw [q0]; exact r0
      · change 0 < (sb 0 0 / tb 0 0).im
        rw [q0]; exact zp
      · change sb 1 1 / tb 1 1 = _
        rw [q1]
        change _ = (starRingEnd ℂ) (sb 0 0 / tb 0 0)
        rw [q0]

/-- What is known about `q2` (or `z2`) during the loop. -/
inductive QTrack (n : ℕ) (V : Matrix (Fin n) (Fin n) ℂ) (done : List ℕ) :
    Option (Arr ℂ) → Option (Arr ℂ) → Prop
  | none : QTrack n V done none none
  | some (a b : Arr ℂ) (h : mat n b = mat n a * V)
      (hc : ∀ r c, c ∉ done → (∀ j ∈ done, c ≠ j + 1) → b r c = a r c) :
      QTrack n V done (some a) (some b)

theorem QTrack.init (q : Option (Arr ℂ)) : QTrack n 1 [] q q := by
  cases q with
  | none => exact QTrack.none
  | some a => exact QTrack.some a a (by simp) (fun _ _ _ _ => rfl)

theorem QTrack.step {V : Matrix (Fin n) (Fin n) ℂ} {done : List ℕ} {q q2 : Option (Arr ℂ)}
    (h : QTrack n V done q q2) {i : ℕ} (hi : i + 1 < n) (far : ∀ j ∈ done, j + 2 ≤ i) (u : Mat2) :
    QTrack n (V * emb n i u) (done ++ [i]) q (optCols i u q q2) := by
  cases h with
  | none => exact QTrack.none
  | some a b h hc =>
    have c0 : ∀ r, b r i = a r i := fun r =>
      hc r i (fun hm => by have := far i hm; omega) (fun j hj e => by have := far j hj; omega)
    have c1 : ∀ r, b r (i + 1) = a r (i + 1) := fun r =>
      hc r (i + 1) (fun hm => by have := far _ hm; omega)
        (fun j hj e => by have := far j hj; omega)
    have e : setCols i u a b = setCols i u b b := by
      funext r c
      simp [setCols, c0, c1]
    refine QTrack.some a _ ?_ ?_
    · rw [e, mat_setCols hi, h, Matrix.mul_assoc]
    · intro r c hm hj
      simp only [List.mem_append, List.mem_singleton, not_or] at hm
      have : c ≠ i + 1 := hj i (by simp)
      simp only [setCols, if_neg hm.2, if_neg this]
      exact hc r c hm.1 (fun j hj' => hj j (by simp [hj']))

/-- The invariant of the loop. -/
def GInv (n : ℕ) (s t : Arr ℝ) (q z : Option (Arr ℂ)) (F : ℕ → Four) (done : List ℕ)
    (st : GState) : Prop :=
  Track n (toC s) (fun i => (F i).sb) st.s2 done ∧
  Track n (toC t) (fun i => (F i).tb) st.t2 done ∧
  (∀ i ∈ done, BlockDone s t i (F i)) ∧
  ∃ VL ∈ unitaryGroup (Fin n) ℂ, ∃ VR ∈ unitaryGroup (Fin n) ℂ,
    mat n st.s2 = VLᴴ * mat n (toC s) * VR ∧ mat n st.t2 = VLᴴ * mat n (toC t) * VR ∧
    QTrack n VL done q st.q2 ∧ QTrack n VR done z st.z2

/-- The blocks the loop writes. -/
noncomputable def gconvF (G : Gges2) (ord2 : Four → Except Err Four) (s t : Arr ℝ) (i : ℕ) : Four :=
  match conv2 G ord2 (blk i (toC s)) (blk i (toC t)) with
  | .ok b => b
  | .error _ => ⟨0, 0, 0, 0⟩

theorem gconv_fold {G : Gges2} (hG : GgesOK G) {ord2 : Four → Except Err Four} (hO : Ord2OK ord2)
    (R : RealGSchur n s t) (q z : Option (Arr ℂ)) (l : List ℕ)
    (hl : ∀ i ∈ l, i ∈ blockpos n s) (hp : l.Pairwise (fun i j => i + 2 ≤ j)) :
    l.foldlM (gconvStep G ord2 q z) ⟨toC s, toC t, q, z⟩ = .error .linAlg ∨
    ∃ st, l.foldlM (gconvStep G ord2 q z) ⟨toC s, toC t, q, z⟩ = .ok st ∧
      GInv n s t q z (gconvF G ord2 s t) l st := by
  induction l using List.reverseRecOn with
  | nil =>
    right
    refine ⟨⟨toC s, toC t, q, z⟩, rfl, Track.init ?_, Track.init ?_, by simp, 1, one_mem _, 1,
      one_mem _, by simp, by simp, QTrack.init q, QTrack.init z⟩
    · intro r c hr hc
      simp [toC, R.lower r c hr hc]
    · intro r c hr hc
      simp [toC, R.upper r c hr (by omega)]
  | append_singleton l i ih =>
    rw [List.pairwise_append] at hp
    have hi : i ∈ blockpos n s := hl i (by simp)
    have far : ∀ j ∈ l, j + 2 ≤ i := fun j hj => hp.2.2 j hj i (by simp)
    rcases ih (fun j hj => hl j (by simp [hj])) hp.1 with h | ⟨st, est, Ts, Tt, hd, VL, hVL, VR, hVR,
      es, et, hq, hz⟩
    · left
      rw [List.foldlM_append, h]
      rfl
    · rw [mem_blockpos] at hi
      have Ns : Next n (toC s) l i := by
        refine ⟨hi.1, far, ?_, ?_⟩
        · intro j e
          subst e
          by_contra hc
          have : s (j + 1) j ≠ 0 := fun z => hc (by simp [toC, z])
          exact hi.2 (R.apart j hi.1 this)
        · intro h
          simp [toC, R.apart i h hi.2]
      have Nt : Next n (toC t) l i := by
        refine ⟨hi.1, far, ?_, ?_⟩
        · intro j e
          subst e
          simp [toC, R.upper (j + 1) j (by omega) (by omega)]
        · intro h
          simp [toC, R.upper (i + 2) (i + 1) h (by omega)]
      have hstep : ∀ (b : Four), conv2 G ord2 (blk i (toC s)) (blk i (toC t)) = .ok b →
          (l ++ [i]).foldlM (gconvStep G ord2 q z) ⟨toC s, toC t, q, z⟩ =
            .ok ⟨upd i b.sb b.qb b.zb st.s2, upd i b.tb b.qb b.zb st.t2,
              optCols i b.qb q st.q2, optCols i b.zb z st.z2⟩ := by
        intro b hb
        rw [List.foldlM_append, est]
        change ([i] : List ℕ).foldlM (gconvStep G ord2 q z) st = _
        simp only [List.foldlM_cons, List.foldlM_nil, gconvStep]
        rw [Ts.blk_eq Ns, Tt.blk_eq Nt, hb]
        rfl
      rcases conv2_ok hG hO R hi.1 hi.2 with h | ⟨b, eb, hbd⟩
      · left
        rw [List.foldlM_append, est]
        change ([i] : List ℕ).foldlM (gconvStep G ord2 q z) st = _
        simp only [List.foldlM_cons, List.foldlM_nil, gconvStep]
        rw [Ts.blk_eq Ns, Tt.blk_eq Nt, h]
        rfl
      · right
        have eF : gconvF G ord2 s t i = b := by simp [gconvF, eb]
        refine ⟨_, hstep b eb, Ts.step Ns hbd.good.ls (by simp only [eF]),
          Tt.step Nt hbd.good.lt (by simp only [eF]), ?_,
          VL * emb n i b.qb, mul_mem hVL (emb_unitary hi.1 hbd.good.uq),
          VR * emb n i b.zb, mul_mem hVR (emb_unitary hi.1 hbd.good.uz), ?_, ?_,
          hq.step hi.1 far b.qb, hz.step hi.1 far b.zb⟩
        · intro j hj
          simp only [List.mem_append, List.mem_singleton] at hj
          rcases hj with hj | hj
          · exact hd j hj
          · subst hj
            rw [eF]
            exact hbd
        · have h := mat_upd hi.1 b.qb b.zb st.s2 (Ts.below Ns) (Ts.before Ns) b.sb
            (by rw [Ts.blk_eq Ns]; exact hbd.good.eq_s)
          rw [h, es, conjTranspose_mul]
          simp only [Matrix.mul_assoc]
        · have h := mat_upd hi.1 b.qb b.zb st.t2 (Tt.below Nt) (Tt.before Nt) b.tb
            (by rw [Tt.blk_eq Nt]; exact hbd.good.eq_t)
          rw [h, et, conjTranspose_mul]
          simp only [Matrix.mul_assoc]

end Kwant.Schur
