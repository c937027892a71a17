import Verif.Linalg.GenSchurConv

/-! # `convert_r2c_gen_schur` (C162) and `order_gen_schur` (C163) -/

set_option linter.unusedSectionVars false

namespace Kwant.Schur

open Matrix

/-- `order_gen_schur([False, True], sb, tb, qb, zb)` (decomp_schur.py l.524-526). -/
noncomputable def ordTwo (L : Tgsen) (G : Gges2) (fuel : ℕ) (b : Four) : Except Err Four :=
  unpack4 (orderGen L G fuel 2 (fun k => k == 1)
    (.cplx (ofM b.sb) (ofM b.tb) (some (ofM b.qb)) (some (ofM b.zb))))

/-! ## Specification -/

/-- The arrays of a form as complex arrays. -/
def GForm.sC : GForm → Arr ℂ
  | .real s _ _ _ => toC s
  | .cplx s _ _ _ => s
/-- The arrays of a form as complex arrays. -/
def GForm.tC : GForm → Arr ℂ
  | .real _ t _ _ => toC t
  | .cplx _ t _ _ => t
/-- The arrays of a form as complex arrays. -/
def GForm.qC : GForm → Option (Arr ℂ)
  | .real _ _ q _ => q.map toC
  | .cplx _ _ q _ => q
/-- The arrays of a form as complex arrays. -/
def GForm.zC : GForm → Option (Arr ℂ)
  | .real _ _ _ z => z.map toC
  | .cplx _ _ _ z => z
/-- The form is complex. -/
def GForm.isCplx : GForm → Prop
  | .real _ _ _ _ => False
  | .cplx _ _ _ _ => True
/-- The form is a generalized Schur form. -/
def GForm.Proper (n : ℕ) : GForm → Prop
  | .real s t _ _ => RealGSchur n s t
  | .cplx s t _ _ => CplxGSchur n s t
/-- `alpha`, `beta` is the list of its generalized eigenvalues. -/
def GForm.Eigs (n : ℕ) (alpha beta : ℕ → ℂ) : GForm → Prop
  | .real s t _ _ => GEigList n s t alpha beta
  | .cplx s t _ _ => ∀ k, k < n → alpha k = s k k ∧ beta k = t k k

/-- The space spanned by the first `m` columns. -/
def lead {n : ℕ} (m : ℕ) (Q : Matrix (Fin n) (Fin n) ℂ) : Submodule ℂ (Fin n → ℂ) :=
  Submodule.span ℂ {v | ∃ k : Fin n, k.val < m ∧ v = fun r => Q r k}

/-! ## Proofs -/

theorem SameEig.refl (a b : ℂ) : SameEig a b a b := ⟨rfl, Iff.rfl⟩

theorem SameEig.symm {a b a' b' : ℂ} (h : SameEig a b a' b') : SameEig a' b' a b :=
  ⟨h.1.symm, h.2.symm⟩

theorem SameEig.trans {a b a' b' a'' b'' : ℂ} (h : SameEig a b a' b') (h' : SameEig a' b' a'' b'') :
    SameEig a b a'' b'' := by
  refine ⟨?_, h.2.trans h'.2⟩
  have e := h.1
  have e' := h'.1
  by_cases hb : b' = 0
  · by_cases ha : a' = 0
    · have z := h.2.mpr ⟨ha, hb⟩
      rw [z.1, z.2]
      ring
    · have z1 : b = 0 := by
        rw [hb, mul_zero] at e
        rcases mul_eq_zero.mp e.symm with h | h
        · exact absurd h ha
        · exact h
      have z2 : b'' = 0 := by
        rw [hb, mul_zero] at e'
        rcases mul_eq_zero.mp e' with h | h
        · exact absurd h ha
        · exact h
      rw [z1, z2]
      ring
  · have : (a * b'' - a'' * b) * b' = 0 := by linear_combination b'' * e + b * e'
    rcases mul_eq_zero.mp this with h | h
    · exact sub_eq_zero.mp h
    · exact absurd h hb

theorem SameEig.of_div {a b a' b' : ℂ} (hb : b ≠ 0) (hb' : b' ≠ 0) (h : a / b = a' / b') :
    SameEig a b a' b' := by
  rw [div_eq_div_iff hb hb'] at h
  refine ⟨h, ?_⟩
  constructor
  · intro h; exact absurd h.2 hb
  · intro h; exact absurd h.2 hb'

variable {n : ℕ}

theorem GEigList.unique {s t : Arr ℝ} (R : RealGSchur n s t) {a b a' b' : ℕ → ℂ}
    (h : GEigList n s t a b) (h' : GEigList n s t a' b') :
    ∀ k, k < n → SameEig (a k) (b k) (a' k) (b' k) := by
  have first : ∀ i, i + 1 < n → s (i + 1) i ≠ 0 → a i / b i = a' i / b' i := by
    intro i h1 h2
    have r := h.root i h1 h2
    have r' := h'.root i h1 h2
    have p := h.pos i h1 h2
    have p' := h'.pos i h1 h2
    have tl : t (i + 1) i = 0 := R.upper _ _ h1 (by omega)
    have t0 := R.pos0 i h1 h2
    have t1 := R.pos1 i h1 h2
    generalize a i / b i = x at r p
    generalize a' i / b' i = y at r' p'
    simp only [pdet, tl] at r r'
    have e : (x - y) * ((t i i * t (i + 1) (i + 1) : ℝ) * (x + y) -
        (s i i * t (i + 1) (i + 1) + t i i * s (i + 1) (i + 1) - t i (i + 1) * s (i + 1) i : ℝ)) = 0 := by
      push_cast
      push_cast at r r'
      linear_combination r - r'
    rcases mul_eq_zero.mp e with e | e
    · exact sub_eq_zero.mp e
    · exfalso
      have := congrArg Complex.im e
      rw [Complex.sub_im, Complex.ofReal_im, Complex.im_ofReal_mul] at this
      simp only [Complex.add_im, Complex.zero_im, sub_zero] at this
      have q : 0 < t i i * t (i + 1) (i + 1) * (x.im + y.im) := by positivity
      linarith
  intro k hk
  by_cases h1 : ∃ j, j + 1 = k ∧ s k j ≠ 0
  · obtain ⟨j, e, hj⟩ := h1
    subst e
    exact SameEig.of_div (h.fin1 j hk hj) (h'.fin1 j hk hj)
      (by rw [h.conj j hk hj, h'.conj j hk hj, first j hk hj])
  · by_cases h2 : k + 1 < n ∧ s (k + 1) k ≠ 0
    · exact SameEig.of_div (h.fin0 k h2.1 h2.2) (h'.fin0 k h2.1 h2.2) (first k h2.1 h2.2)
    · have a1 : k + 1 < n → s (k + 1) k = 0 := by
        intro hh
        by_contra hx
        exact h2 ⟨hh, hx⟩
      have a2 : ∀ j, j + 1 = k → s k j = 0 := by
        intro j e
        by_contra hx
        exact h1 ⟨j, e, hx⟩
      exact (h.single k hk a1 a2).trans (h'.single k hk a1 a2).symm

theorem GSelectedFirst.congr {sel : ℕ → Bool} {a0 b0 a1 b1 a b : ℕ → ℂ}
    (h : GSelectedFirst n sel a0 b0 a b)
    (e : ∀ k, k < n → SameEig (a0 k) (b0 k) (a1 k) (b1 k)) : GSelectedFirst n sel a1 b1 a b := by
  obtain ⟨σ, hσ⟩ := h
  exact ⟨σ, fun k => ⟨(hσ k).1.trans (e _ (σ k).2), (hσ k).2⟩⟩

theorem mat_ofM (b : Mat2) : mat 2 (ofM b) = b := by
  ext x y
  fin_cases x <;> fin_cases y <;> simp [mat, ofM]

theorem blk_mat (m : Arr ℂ) : blk 0 m = mat 2 m := by
  ext x y
  fin_cases x <;> fin_cases y <;> simp [mat, blk]

theorem ordTwo_ok {L : Tgsen} (hL : TgsenOK L) (G : Gges2) (fuel : ℕ) :
    Ord2OK (ordTwo L G (fuel + 1)) := by
  intro S T b h
  have U : UpperTri 2 (ofM b.sb) := by
    intro r c hr hc
    have e1 : r = 1 := by omega
    have e2 : c = 0 := by omega
    subst e1 e2
    simp [ofM, h.ls]
  have U' : UpperTri 2 (ofM b.tb) := by
    intro r c hr hc
    have e1 : r = 1 := by omega
    have e2 : c = 0 := by omega
    subst e1 e2
    simp [ofM, h.lt]
  have C : CplxGSchur 2 (ofM b.sb) (ofM b.tb) := by
    refine ⟨U, U', ?_⟩
    intro k hk
    interval_cases k
    · simpa [ofM] using h.nn 0
    · simpa [ofM] using h.nn 1
  have hs : splits 2 (fun k => k == 1) (ofM b.sb) = false := splits_upper U
  cases hr : L.cx 2 (fun k => k == 1) (ofM b.sb) (ofM b.tb) (some (ofM b.qb)) (some (ofM b.zb)) with
  | none =>
    left
    simp [ordTwo, orderGen, hs, hr, unpack4]
  | some r =>
    right
    obtain ⟨s', t', q', z', al, be⟩ := r
    obtain ⟨C', hab, ⟨σ, hσ⟩, VL, hVL, VR, hVR, es, et, eq, ez⟩ := hL.cx_ok _ _ _ _ _ _ _ _ _ _ _ _ C hr
    cases q' with
    | none => simp at eq
    | some q' =>
      cases z' with
      | none => simp at ez
      | some z' =>
        simp only [Option.map_some, Option.some.injEq, mat_ofM] at eq ez
        rw [mat_ofM] at es et
        have V1 : VL * VLᴴ = 1 := mem_unitaryGroup_iff.mp hVL
        have V2 : VR * VRᴴ = 1 := mem_unitaryGroup_iff.mp hVR
        refine ⟨⟨blk 0 s', blk 0 t', blk 0 q', blk 0 z'⟩, ?_, ?_, ?_, ?_⟩
        · simp [ordTwo, orderGen, hs, hr, unpack4]
        · refine ⟨?_, ?_, ?_, ?_, ?_, ?_, ?_⟩
          · change blk 0 q' ∈ _
            rw [blk_mat, eq]
            exact mul_mem h.uq hVL
          · change blk 0 z' ∈ _
            rw [blk_mat, ez]
            exact mul_mem h.uz hVR
          · change blk 0 q' * blk 0 s' * (blk 0 z')ᴴ = S
            rw [blk_mat, blk_mat, blk_mat, eq, ez, es, conjTranspose_mul, ← h.hs]
            calc b.qb * VL * (VLᴴ * b.sb * VR) * (VRᴴ * b.zbᴴ)
                = b.qb * (VL * VLᴴ) * b.sb * (VR * VRᴴ) * b.zbᴴ := by
                  simp only [Matrix.mul_assoc]
              _ = _ := by rw [V1, V2]; simp
          · change blk 0 q' * blk 0 t' * (blk 0 z')ᴴ = T
            rw [blk_mat, blk_mat, blk_mat, eq, ez, et, conjTranspose_mul, ← h.ht]
            calc b.qb * VL * (VLᴴ * b.tb * VR) * (VRᴴ * b.zbᴴ)
                = b.qb * (VL * VLᴴ) * b.tb * (VR * VRᴴ) * b.zbᴴ := by
                  simp only [Matrix.mul_assoc]
              _ = _ := by rw [V1, V2]; simp
          · simpa [blk] using C'.upper_s 1 0 (by norm_num) (by norm_num)
          · simpa [blk] using C'.upper_t 1 0 (by norm_num) (by norm_num)
          · intro k
            fin_cases k
            · simpa [blk] using C'.nonneg 0 (by norm_num)
            · simpa [blk] using C'.nonneg 1 (by norm_num)
        · have h0 := hσ 0
          have ns : numSel 2 (fun k => k == 1) = 1 := by decide
          have e : σ 0 = 1 := by
            have := h0.2.mp (by rw [ns]; norm_num)
            have h2 := (σ 0).2
            simp only [beq_iff_eq] at this
            exact Fin.ext this
          have h1 := h0.1
          rw [e] at h1
          have x := hab 0 (by norm_num)
          simpa [x.1, x.2, ofM, blk] using h1
        · have h0 := hσ 1
          have ns : numSel 2 (fun k => k == 1) = 1 := by decide
          have e : σ 1 = 0 := by
            have := h0.2.not.mp (by rw [ns]; norm_num)
            have h2 := (σ 1).2
            simp only [beq_iff_eq] at this
            apply Fin.ext
            change (σ 1).val = 0
            omega
          have h1 := h0.1
          rw [e] at h1
          have x := hab 1 (by norm_num)
          simpa [x.1, x.2, ofM, blk] using h1

/-- **C162** (with 2x2 blocks).  Let LAPACK's `gges` and `tgsen` do what they
document.  For every real generalized Schur form `(s, t)` of any size with a 2x2
block, and `q`, `z` given or `None`, `convert_r2c_gen_schur(s, t, q, z)` either raises
`LinAlgError` or returns complex triangular arrays `(s2, t2)`, related to `(s, t)`
by unitary matrices `VL`, `VR` that are also multiplied to `q` and `z`, and the
pairs of diagonal entries of `(s2, t2)` are, entry by entry, the generalized eigenvalues
documented for `(s, t)`: order kept, positive imaginary part first. -/
theorem C162_convert {L : Tgsen} (hL : TgsenOK L) {G : Gges2} (hG : GgesOK G) (fuel : ℕ)
    (s t : Arr ℝ) (q z : Option (Arr ℝ)) (R : RealGSchur n s t)
    (hb : ∃ i, i + 1 < n ∧ s (i + 1) i ≠ 0) :
    gconvert G (ordTwo L G (fuel + 1)) n (.real s t q z) = .error .linAlg ∨
    ∃ s2 t2 q2 z2, gconvert G (ordTwo L G (fuel + 1)) n (.real s t q z) = .ok (.cplx s2 t2 q2 z2) ∧
      CplxGSchur n s2 t2 ∧
      GEigList n s t (fun k => s2 k k) (fun k => t2 k k) ∧
      ∃ VL ∈ unitaryGroup (Fin n) ℂ, ∃ VR ∈ unitaryGroup (Fin n) ℂ,
        mat n s2 = VLᴴ * mat n (toC s) * VR ∧ mat n t2 = VLᴴ * mat n (toC t) * VR ∧
        q2.map (mat n) = q.map (fun q => mat n (toC q) * VL) ∧
        z2.map (mat n) = z.map (fun z => mat n (toC z) * VR) := by
  obtain ⟨i0, hi0⟩ := hb
  have hne : (blockpos n s).isEmpty = false := by
    cases hh : (blockpos n s) with
    | nil =>
      have := (mem_blockpos (n := n) (t := s)).mpr hi0
      rw [hh] at this
      simp at this
    | cons a l => rfl
  rcases gconv_fold hG (ordTwo_ok hL G fuel) R (q.map toC) (z.map toC) (blockpos n s)
    (fun _ h => h) (blockpos_apart R.apart) with h | ⟨st, est, Ts, Tt, hd, VL, hVL, VR, hVR, es, et, hq, hz⟩
  · left
    simp only [gconvert, hne, h]
    rfl
  · right
    have key : ∀ (V : Matrix (Fin n) (Fin n) ℂ) (a : Option (Arr ℝ)) (b : Option (Arr ℂ)),
        QTrack n V (blockpos n s) (a.map toC) b →
        b.map (mat n) = a.map (fun q => mat n (toC q) * V) := by
      intro V a b h
      cases a with
      | none =>
        cases h with
        | none => rfl
      | some a =>
        cases h with
        | some _ b h _ => simp [h]
    refine ⟨st.s2, st.t2, st.q2, st.z2, ?_, ?_, ?_, VL, hVL, VR, hVR, es, et, key _ _ _ hq,
      key _ _ _ hz⟩
    · simp only [gconvert, hne, est]
      rfl
    · refine ⟨?_, ?_, ?_⟩
      · intro r c hr hrc
        by_cases h : c + 1 < r
        · exact Ts.low r c hr h
        · have e : r = c + 1 := by omega
          subst e
          rw [Ts.sub c hr]
          split_ifs with hm
          · rfl
          · rw [mem_blockpos] at hm
            have : s (c + 1) c = 0 := by
              by_contra hx
              exact hm ⟨hr, hx⟩
            simp [toC, this]
      · intro r c hr hrc
        by_cases h : c + 1 < r
        · exact Tt.low r c hr h
        · have e : r = c + 1 := by omega
          subst e
          rw [Tt.sub c hr]
          split_ifs with hm
          · rfl
          · simp [toC, R.upper (c + 1) c hr (by omega)]
      · intro k hk
        by_cases h1 : k ∈ blockpos n s
        · rw [Tt.new0 k h1]
          exact (hd k h1).good.nn 0
        · by_cases h2 : ∃ j ∈ blockpos n s, k = j + 1
          · obtain ⟨j, hj, e⟩ := h2
            subst e
            rw [Tt.new1 j hj]
            exact (hd j hj).good.nn 1
          · push Not at h2
            rw [Tt.diag k hk h1 h2]
            exact ⟨t k k, R.nonneg k hk, rfl⟩
    · have n0s : ∀ i ∈ blockpos n s, st.s2 i i = (gconvF G (ordTwo L G (fuel + 1)) s t i).sb 0 0 := Ts.new0
      have n0t : ∀ i ∈ blockpos n s, st.t2 i i = (gconvF G (ordTwo L G (fuel + 1)) s t i).tb 0 0 := Tt.new0
      have n1s : ∀ i ∈ blockpos n s, st.s2 (i + 1) (i + 1) = (gconvF G (ordTwo L G (fuel + 1)) s t i).sb 1 1 := Ts.new1
      have n1t : ∀ i ∈ blockpos n s, st.t2 (i + 1) (i + 1) = (gconvF G (ordTwo L G (fuel + 1)) s t i).tb 1 1 := Tt.new1
      refine ⟨?_, ?_, ?_, ?_, ?_, ?_⟩
      · intro k hk h1 h2
        have m1 : k ∉ blockpos n s := by
          rw [mem_blockpos]
          rintro ⟨a1, a2⟩
          exact a2 (h1 a1)
        have m2 : ∀ j ∈ blockpos n s, k ≠ j + 1 := by
          intro j hj e
          subst e
          rw [mem_blockpos] at hj
          exact hj.2 (h2 j rfl)
        have e1 : st.s2 k k = s k k := Ts.diag k hk m1 m2
        have e2 : st.t2 k k = t k k := Tt.diag k hk m1 m2
        simp only [e1, e2]
        exact SameEig.refl _ _
      all_goals
        intro i h1 h2
        have hm : i ∈ blockpos n s := mem_blockpos.mpr ⟨h1, h2⟩
        have D := hd i hm
        simp only [n0s i hm, n0t i hm, n1s i hm, n1t i hm]
      · exact D.fin0
      · exact D.fin1
      · exact D.root
      · exact D.pos
      · exact D.conj

/-- **C162** (no 2x2 block): the input is returned unchanged. -/
theorem C162_unchanged (G : Gges2) (ord2 : Four → Except Err Four) (s t : Arr ℝ)
    (q z : Option (Arr ℝ)) (h : ∀ i, i + 1 < n → s (i + 1) i = 0) :
    gconvert G ord2 n (.real s t q z) = .ok (.real s t q z) := by
  have : blockpos n s = [] := by
    rw [List.eq_nil_iff_forall_not_mem]
    intro i hi
    rw [mem_blockpos] at hi
    exact hi.2 (h i hi.1)
  simp [gconvert, this]

theorem map_lift {V : Matrix (Fin n) (Fin n) ℝ} (h : V ∈ orthogonalGroup (Fin n) ℝ) :
    V.map (fun x : ℝ => (x : ℂ)) ∈ unitaryGroup (Fin n) ℂ := by
  have e : (V.map (fun x : ℝ => (x : ℂ)))ᴴ = (Vᵀ).map (fun x : ℝ => (x : ℂ)) := by
    ext x y
    simp
  rw [mem_unitaryGroup_iff, Matrix.star_eq_conjTranspose, e, ← ofReal_map_mul]
  have := (mem_orthogonalGroup_iff (Fin n) ℝ).mp h
  rw [this]
  ext x y
  by_cases h : x = y <;> simp [Matrix.one_apply, h]

theorem lead_map {m : ℕ} {A Q Z T : Matrix (Fin n) (Fin n) ℂ} (h : A * Z = Q * T)
    (hT : ∀ r c : Fin n, m ≤ r.val → c.val < m → T r c = 0) :
    ∀ v ∈ lead m Z, A *ᵥ v ∈ lead m Q := by
  intro v hv
  unfold lead at *
  induction hv using Submodule.span_induction with
  | mem v hv =>
    obtain ⟨k, hk, rfl⟩ := hv
    have e : A *ᵥ (fun r => Z r k) = ∑ j, T j k • (fun r => Q r j) := by
      funext r
      have := congrFun (congrFun h r) k
      rw [Matrix.mul_apply, Matrix.mul_apply] at this
      simp only [Matrix.mulVec, dotProduct, Finset.sum_apply, Pi.smul_apply, smul_eq_mul]
      rw [this]
      exact Finset.sum_congr rfl (fun j _ => mul_comm _ _)
    rw [e]
    apply Submodule.sum_mem
    intro j _
    by_cases hj : j.val < m
    · exact Submodule.smul_mem _ _ (Submodule.subset_span ⟨j, hj, rfl⟩)
    · rw [hT j k (by omega) hk, zero_smul]
      exact Submodule.zero_mem _
  | zero => simp
  | add x y _ _ hx hy => rw [Matrix.mulVec_add]; exact Submodule.add_mem _ hx hy
  | smul a x _ hx => rw [Matrix.mulVec_smul]; exact Submodule.smul_mem _ _ hx

/-- The form `f` with the eigenvalues `alpha`, `beta` is a reordered generalized
Schur form of the pencil `(A, B)`: there are unitary `Q'`, `Z'`, contained in `f` as
far as `q` and `z` were given, with `A = Q' s' Z'^dagger` and `B = Q' t' Z'^dagger`,
and `A` and `B` map the space of the first `m` columns of `Z'` into the one of the first `m`
columns of `Q'`. -/
def Reordered (n m : ℕ) (A B : Matrix (Fin n) (Fin n) ℂ) (hasQ hasZ : Bool) (r : GRes) : Prop :=
  r.form.Proper n ∧ r.form.Eigs n r.alpha r.beta ∧
  ∃ Q' ∈ unitaryGroup (Fin n) ℂ, ∃ Z' ∈ unitaryGroup (Fin n) ℂ,
    r.form.qC.map (mat n) = (if hasQ then some Q' else none) ∧
    r.form.zC.map (mat n) = (if hasZ then some Z' else none) ∧
    Q' * mat n r.form.sC * Z'ᴴ = A ∧ Q' * mat n r.form.tC * Z'ᴴ = B ∧
    (∀ v ∈ lead m Z', A *ᵥ v ∈ lead m Q') ∧ (∀ v ∈ lead m Z', B *ᵥ v ∈ lead m Q')

theorem reordered_of {m : ℕ} {Q Z VL VR S T S' T' : Matrix (Fin n) (Fin n) ℂ}
    (hQ : Q ∈ unitaryGroup (Fin n) ℂ) (hZ : Z ∈ unitaryGroup (Fin n) ℂ)
    (hVL : VL ∈ unitaryGroup (Fin n) ℂ) (hVR : VR ∈ unitaryGroup (Fin n) ℂ)
    (es : S' = VLᴴ * S * VR) (et : T' = VLᴴ * T * VR)
    (ls : ∀ r c : Fin n, m ≤ r.val → c.val < m → S' r c = 0)
    (lt : ∀ r c : Fin n, m ≤ r.val → c.val < m → T' r c = 0) :
    (Q * VL) * S' * (Z * VR)ᴴ = Q * S * Zᴴ ∧ (Q * VL) * T' * (Z * VR)ᴴ = Q * T * Zᴴ ∧
    (∀ v ∈ lead m (Z * VR), (Q * S * Zᴴ) *ᵥ v ∈ lead m (Q * VL)) ∧
    (∀ v ∈ lead m (Z * VR), (Q * T * Zᴴ) *ᵥ v ∈ lead m (Q * VL)) := by
  have V1 : VL * VLᴴ = 1 := mem_unitaryGroup_iff.mp hVL
  have V2 : VR * VRᴴ = 1 := mem_unitaryGroup_iff.mp hVR
  have hZ' : (Z * VR)ᴴ * (Z * VR) = 1 := mem_unitaryGroup_iff'.mp (mul_mem hZ hVR)
  have core : ∀ X X' : Matrix (Fin n) (Fin n) ℂ, X' = VLᴴ * X * VR →
      (Q * VL) * X' * (Z * VR)ᴴ = Q * X * Zᴴ := by
    intro X X' e
    rw [e, conjTranspose_mul]
    calc Q * VL * (VLᴴ * X * VR) * (VRᴴ * Zᴴ)
        = Q * (VL * VLᴴ) * X * (VR * VRᴴ) * Zᴴ := by simp only [Matrix.mul_assoc]
      _ = _ := by rw [V1, V2]; simp
  have c1 := core S S' es
  have c2 := core T T' et
  refine ⟨c1, c2, ?_, ?_⟩
  · apply lead_map (T := S') ?_ ls
    rw [← c1, Matrix.mul_assoc, hZ', Matrix.mul_one]
  · apply lead_map (T := T') ?_ lt
    rw [← c2, Matrix.mul_assoc, hZ', Matrix.mul_one]

/-- **C163** (partial).  Let LAPACK's `gges` and `tgsen` do what they document.
For every real generalized Schur form `(s, t)` of any size, with unitary `Q`, `Z`
(given to the function as `q`, `z` or not), and every selection,
`order_gen_schur(select, s, t, q, z)` either raises `LinAlgError` or returns a
generalized Schur form of the same pencil with its list of eigenvalues, the selected
ones first, complex exactly if a conjugate pair is separated; its first
columns span deflating subspaces.  Missing: if a pair is separated, `q` and `z` must both have
been given (see `C163_counterexample`). -/
theorem C163_order_partial {L : Tgsen} (hL : TgsenOK L) {G : Gges2} (hG : GgesOK G) (fuel : ℕ)
    (hf : 2 ≤ fuel) (sel : ℕ → Bool) (s t : Arr ℝ) (q z : Option (Arr ℝ)) (R : RealGSchur n s t)
    (Q Z : Matrix (Fin n) (Fin n) ℂ) (hQ : Q ∈ unitaryGroup (Fin n) ℂ)
    (hZ : Z ∈ unitaryGroup (Fin n) ℂ)
    (hq : ∀ a, q = some a → mat n (toC a) = Q) (hz : ∀ a, z = some a → mat n (toC a) = Z)
    (both : (∃ i, i + 1 < n ∧ s (i + 1) i ≠ 0 ∧ sel i ≠ sel (i + 1)) →
      q.isSome = true ∧ z.isSome = true) :
    orderGen L G fuel n sel (.real s t q z) = .error .linAlg ∨
    ∃ r, orderGen L G fuel n sel (.real s t q z) = .ok r ∧
      Reordered n (numSel n sel) (Q * mat n (toC s) * Zᴴ) (Q * mat n (toC t) * Zᴴ)
        q.isSome z.isSome r ∧
      (∀ a0 b0, GEigList n s t a0 b0 → GSelectedFirst n sel a0 b0 r.alpha r.beta) ∧
      (r.form.isCplx ↔ ∃ i, i + 1 < n ∧ s (i + 1) i ≠ 0 ∧ sel i ≠ sel (i + 1)) := by
  obtain ⟨fuel, rfl⟩ : ∃ k, fuel = k + 2 := ⟨fuel - 2, by omega⟩
  by_cases hs : splits n sel s = true
  · have hs' := splits_iff.mp hs
    obtain ⟨iq, iz⟩ := both hs'
    obtain ⟨q0, rfl⟩ := Option.isSome_iff_exists.mp iq
    obtain ⟨z0, rfl⟩ := Option.isSome_iff_exists.mp iz
    have Qe := hq q0 rfl
    have Ze := hz z0 rfl
    obtain ⟨i, hi, hb, hne⟩ := hs'
    have unf : orderGen L G (fuel + 2) n sel (.real s t (some q0) (some z0)) =
        (do
          let f' ← gconvert G (ordTwo L G (fuel + 1)) n (.real s t (some q0) (some z0))
          if f'.length = 4 then orderGen L G (fuel + 1) n sel f' else .error .value) := by
      rw [orderGen]
      simp only [hs, if_true]
      rfl
    rw [unf]
    rcases C162_convert hL hG fuel s t (some q0) (some z0) R ⟨i, hi, hb⟩ with h | ⟨s2, t2, q2, z2, e, C, E,
      VL, hVL, VR, hVR, es, et, eq, ez⟩
    · left
      rw [h]
      rfl
    · rw [e]
      cases q2 with
      | none => simp at eq
      | some q2 =>
      cases z2 with
      | none => simp at ez
      | some z2 =>
      simp only [Option.map_some, Option.some.injEq] at eq ez
      have hsu : splits n sel s2 = false := splits_upper C.upper_s
      have unf2 : (do
          let f' ← (Except.ok (GForm.cplx s2 t2 (some q2) (some z2)) : Except Err GForm)
          if f'.length = 4 then orderGen L G (fuel + 1) n sel f' else .error .value) =
          (match L.cx n sel s2 t2 (some q2) (some z2) with
            | none => .error .linAlg
            | some (s', t', q', z', a, b) => .ok ⟨.cplx s' t' q' z', a, b⟩) := by
        simp only [bind, Except.bind, GForm.length, Option.isSome_some, if_true]
        rw [orderGen]
        simp only [hsu]
        rfl
      rw [unf2]
      cases hr : L.cx n sel s2 t2 (some q2) (some z2) with
      | none => left; rfl
      | some r =>
        right
        obtain ⟨s', t', q', z', al, be⟩ := r
        obtain ⟨C', hab, hsel, WL, hWL, WR, hWR, fs, ft, fq, fz⟩ := hL.cx_ok _ _ _ _ _ _ _ _ _ _ _ _ C hr
        refine ⟨⟨.cplx s' t' q' z', al, be⟩, rfl, ⟨C', hab, Q * (VL * WL), ?_, Z * (VR * WR), ?_, ?_, ?_, ?_⟩,
          ?_, ?_⟩
        · exact mul_mem hQ (mul_mem hVL hWL)
        · exact mul_mem hZ (mul_mem hVR hWR)
        · change q'.map (mat n) = _
          rw [fq]
          simp [eq, Qe, Matrix.mul_assoc]
        · change z'.map (mat n) = _
          rw [fz]
          simp [ez, Ze, Matrix.mul_assoc]
        · have a1 : mat n s' = (VL * WL)ᴴ * mat n (toC s) * (VR * WR) := by
            rw [fs, es, conjTranspose_mul]
            simp only [Matrix.mul_assoc]
          have a2 : mat n t' = (VL * WL)ᴴ * mat n (toC t) * (VR * WR) := by
            rw [ft, et, conjTranspose_mul]
            simp only [Matrix.mul_assoc]
          exact reordered_of hQ hZ (mul_mem hVL hWL) (mul_mem hVR hWR) a1 a2
            (fun r c hr hc => C'.upper_s r c r.2 (by omega))
            (fun r c hr hc => C'.upper_t r c r.2 (by omega))
        · intro a0 b0 h0
          exact hsel.congr (E.unique R h0)
        · exact ⟨fun _ => ⟨i, hi, hb, hne⟩, fun _ => trivial⟩
  · have hs0 : splits n sel s = false := by simpa using hs
    have ns : ¬ ∃ i, i + 1 < n ∧ s (i + 1) i ≠ 0 ∧ sel i ≠ sel (i + 1) := by
      rw [← splits_iff]
      exact hs
    have ns' : ∀ i, i + 1 < n → s (i + 1) i ≠ 0 → sel i = sel (i + 1) := by
      intro i h1 h2
      by_contra h3
      exact ns ⟨i, h1, h2, h3⟩
    cases hr : L.re n sel s t q z with
    | none =>
      left
      simp [orderGen, hs0, hr]
    | some r =>
      right
      obtain ⟨s', t', q', z', al, be⟩ := r
      obtain ⟨R', hl, hab, hsel, VL, hVL, VR, hVR, es, et, eq, ez⟩ :=
        hL.re_ok _ _ _ _ _ _ _ _ _ _ _ _ R ns' hr
      have mm : ∀ a : Arr ℝ, mat n (toC a) = (mat n a).map (fun x : ℝ => (x : ℂ)) := fun _ => rfl
      have tr : ∀ V : Matrix (Fin n) (Fin n) ℝ, (V.map (fun x : ℝ => (x : ℂ)))ᴴ =
          (Vᵀ).map (fun x : ℝ => (x : ℂ)) := by
        intro V
        ext x y
        simp
      have a1 : mat n (toC s') = (VL.map (fun x : ℝ => (x : ℂ)))ᴴ * mat n (toC s) *
          VR.map (fun x : ℝ => (x : ℂ)) := by
        rw [mm, mm, es, tr, ofReal_map_mul, ofReal_map_mul]
      have a2 : mat n (toC t') = (VL.map (fun x : ℝ => (x : ℂ)))ᴴ * mat n (toC t) *
          VR.map (fun x : ℝ => (x : ℂ)) := by
        rw [mm, mm, et, tr, ofReal_map_mul, ofReal_map_mul]
      have opt : ∀ (a b : Option (Arr ℝ)) (P : Matrix (Fin n) (Fin n) ℂ)
          (V : Matrix (Fin n) (Fin n) ℝ), (∀ c, a = some c → mat n (toC c) = P) →
          b.map (mat n) = a.map (fun q => mat n q * V) →
          (b.map toC).map (mat n) = if a.isSome then some (P * V.map (fun x : ℝ => (x : ℂ))) else none := by
        intro a b P V h1 h2
        cases a with
        | none =>
          cases b with
          | none => rfl
          | some b => simp at h2
        | some a =>
          cases b with
          | none => simp at h2
          | some b =>
            simp only [Option.map_some, Option.some.injEq] at h2
            simp [mm, h2, ofReal_map_mul, ← h1 a rfl]
      refine ⟨⟨.real s' t' q' z', al, be⟩, ?_, ⟨R', hab, Q * VL.map (fun x : ℝ => (x : ℂ)), ?_,
        Z * VR.map (fun x : ℝ => (x : ℂ)), ?_, ?_, ?_, ?_⟩, hsel, ?_⟩
      · simp [orderGen, hs0, hr]
      · exact mul_mem hQ (map_lift hVL)
      · exact mul_mem hZ (map_lift hVR)
      · exact opt q q' Q VL hq eq
      · exact opt z z' Z VR hz ez
      · exact reordered_of hQ hZ (map_lift hVL) (map_lift hVR) a1 a2
          (fun r c hr hc => by
            have := hl r c r.2 hr hc
            change ((s' r c : ℝ) : ℂ) = 0
            rw [this]; simp)
          (fun r c hr hc => by
            have := R'.upper r c r.2 (by omega)
            change ((t' r c : ℝ) : ℂ) = 0
            rw [this]; simp)
      · exact ⟨fun h => h.elim, fun h => absurd h ns⟩

/-- Whenever a conjugate pair is separated and `q` or `z` is `None` (as in
`kwant.physics.leads`, where only `z` is passed), no result is returned:
`convert_r2c_gen_schur` returns fewer than four values and unpacking them raises a
`ValueError`, although the documentation allows `None`. -/
theorem C163_counterexample {L : Tgsen} (hL : TgsenOK L) {G : Gges2} (hG : GgesOK G) (fuel : ℕ)
    (sel : ℕ → Bool) (s t : Arr ℝ) (q z : Option (Arr ℝ)) (R : RealGSchur n s t)
    (hs : ∃ i, i + 1 < n ∧ s (i + 1) i ≠ 0 ∧ sel i ≠ sel (i + 1))
    (hnone : q = none ∨ z = none) :
    orderGen L G (fuel + 2) n sel (.real s t q z) = .error .value ∨
    orderGen L G (fuel + 2) n sel (.real s t q z) = .error .linAlg := by
  have hsp := splits_iff.mpr hs
  obtain ⟨i, hi, hb, hne⟩ := hs
  have unf : orderGen L G (fuel + 2) n sel (.real s t q z) =
      (do
        let f' ← gconvert G (ordTwo L G (fuel + 1)) n (.real s t q z)
        if f'.length = 4 then orderGen L G (fuel + 1) n sel f' else .error .value) := by
    rw [orderGen]
    simp only [hsp, if_true]
    rfl
  rw [unf]
  rcases C162_convert hL hG fuel s t q z R ⟨i, hi, hb⟩ with h | ⟨s2, t2, q2, z2, e, C, E,
      VL, hVL, VR, hVR, es, et, eq, ez⟩
  · right
    rw [h]
    rfl
  · left
    rw [e]
    have : (GForm.cplx s2 t2 q2 z2).length ≠ 4 := by
      rcases hnone with h | h
      · subst h
        cases q2 with
        | none =>
          simp only [GForm.length]
          cases z2 <;> simp
        | some a => simp at eq
      · subst h
        cases z2 with
        | none =>
          simp only [GForm.length]
          cases q2 <;> simp
        | some a => simp at ez
    simp only [bind, Except.bind, if_neg this]

end Kwant.Schur
