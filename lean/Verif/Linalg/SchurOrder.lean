import Verif.Linalg.SchurConv

/-! # `order_schur` (C161) -/

set_option linter.unusedSectionVars false

namespace Kwant.Schur

open Matrix

/-- LAPACK's `xTRSEN` as called by `lapack.trsen` (lapack.pyx l.87-180): `re` for
real arrays, `cx` for complex ones.  `none` is `info > 0`.  The result is the
reordered `(t, q)` and the list of eigenvalues `w`. -/
structure Trsen where
  re : (ℕ → Bool) → Arr ℝ → Option (Arr ℝ) → Option (Arr ℝ × Option (Arr ℝ) × (ℕ → ℂ))
  cx : (ℕ → Bool) → Arr ℂ → Option (Arr ℂ) → Option (Arr ℂ × Option (Arr ℂ) × (ℕ → ℂ))

/-- `any(bool(select[i]) != bool(select[i+1]) for i in blocks)`
(decomp_schur.py l.213-214, l.430-431). -/
def splits {K : Type} [Zero K] [DecidableEq K] (n : ℕ) (sel : ℕ → Bool) (t : Arr K) : Bool :=
  (blockpos n t).any (fun i => sel i != sel (i + 1))

/-- `order_schur(select, t, q)` (decomp_schur.py l.157-218).  The function calls
itself after a conversion; `fuel` bounds the depth of the recursion.
`convert_r2c_schur` of a complex array with a nonzero lower diagonal fails in
`math.sqrt`.  The selection is an array (a function `select` is first turned
into one, l.204-206).  Copying by `prepare_for_lapack` is not modelled here. -/
noncomputable def orderSchur (L : Trsen) (n : ℕ) (sel : ℕ → Bool) :
    ℕ → Form → Except Err (Form × (ℕ → ℂ))
  | 0, _ => .error .recursion
  | fuel + 1, .real t q =>
    if splits n sel t then do
      let f ← convertR2C n t q
      orderSchur L n sel fuel f
    else match L.re sel t q with
      | none => .error .linAlg
      | some (t', q', w) => .ok (.real t' q', w)
  | _ + 1, .cplx t q =>
    if splits n sel t then .error .type
    else match L.cx sel t q with
      | none => .error .linAlg
      | some (t', q', w) => .ok (.cplx t' q', w)

/-! ## Specification -/

/-- The number of selected eigenvalues. -/
def numSel (n : ℕ) (sel : ℕ → Bool) : ℕ := ((List.range n).filter sel).length

/-- The first eigenvalues of `w` are, as a multiset, the selected ones of `w0`. -/
def SelectedFirst (n : ℕ) (sel : ℕ → Bool) (w0 w : ℕ → ℂ) : Prop :=
  ((List.range (numSel n sel)).map w).Perm (((List.range n).filter sel).map w0)

/-- Nothing below the leading `m` by `m` block. -/
def LeadingBlock {K : Type} [Zero K] (n m : ℕ) (t : Arr K) : Prop :=
  ∀ r c, r < n → m ≤ r → c < m → t r c = 0

/-- What LAPACK documents for `xTRSEN`. -/
structure TrsenOK (n : ℕ) (L : Trsen) : Prop where
  /-- Real arrays: the routine may only be called if no 2x2 block would have to
  be split. -/
  re_ok : ∀ sel t q t' q' w, RealSchur n t →
    (∀ i, i + 1 < n → t (i + 1) i ≠ 0 → sel i = sel (i + 1)) →
    L.re sel t q = some (t', q', w) →
      RealSchur n t' ∧ LeadingBlock n (numSel n sel) t' ∧ EigList n t' w ∧
      (∀ w0, EigList n t w0 → SelectedFirst n sel w0 w) ∧
      ∃ V ∈ orthogonalGroup (Fin n) ℝ, mat n t' = Vᵀ * mat n t * V ∧
        q'.map (mat n) = q.map (fun q => mat n q * V)
  cx_ok : ∀ sel t q t' q' w, UpperTri n t → L.cx sel t q = some (t', q', w) →
      UpperTri n t' ∧ (∀ k, k < n → w k = t' k k) ∧
      SelectedFirst n sel (fun k => t k k) w ∧
      ∃ V ∈ unitaryGroup (Fin n) ℂ, mat n t' = Vᴴ * mat n t * V ∧
        q'.map (mat n) = q.map (fun q => mat n q * V)

/-- `(t, q)` is a Schur form of the matrix `A`, and `w` its list of eigenvalues. -/
inductive IsSchurOf (n : ℕ) (A : Matrix (Fin n) (Fin n) ℂ) : Form → (ℕ → ℂ) → Prop
  | real (t q : Arr ℝ) (w : ℕ → ℂ) (ht : RealSchur n t)
      (hq : mat n q ∈ orthogonalGroup (Fin n) ℝ)
      (hA : (mat n q * mat n t * (mat n q)ᵀ).map (fun x : ℝ => (x : ℂ)) = A)
      (hw : EigList n t w) : IsSchurOf n A (.real t (some q)) w
  | cplx (t q : Arr ℂ) (w : ℕ → ℂ) (ht : UpperTri n t)
      (hq : mat n q ∈ unitaryGroup (Fin n) ℂ)
      (hA : mat n q * mat n t * (mat n q)ᴴ = A)
      (hw : ∀ k, k < n → w k = t k k) : IsSchurOf n A (.cplx t (some q)) w

/-- The `k`-th Schur vector. -/
def Form.vec (n : ℕ) : Form → ℕ → (Fin n → ℂ)
  | .real _ (some q), k => fun r => (q r k : ℂ)
  | .cplx _ (some q), k => fun r => q r k
  | _, _ => fun _ => 0

/-- The first `m` Schur vectors span a subspace that `A` maps into itself. -/
def Invariant (n m : ℕ) (A : Matrix (Fin n) (Fin n) ℂ) (f : Form) : Prop :=
  ∀ v ∈ Submodule.span ℂ {v | ∃ k, k < m ∧ v = f.vec n k},
    A *ᵥ v ∈ Submodule.span ℂ {v | ∃ k, k < m ∧ v = f.vec n k}

/-! ## Proofs -/

variable {n : ℕ}

theorem EigList.unique {t : Arr ℝ} (S : RealSchur n t) {w w' : ℕ → ℂ} (h : EigList n t w)
    (h' : EigList n t w') : ∀ k, k < n → w k = w' k := by
  have first : ∀ i, i + 1 < n → t (i + 1) i ≠ 0 → w i = w' i := by
    intro i h1 h2
    have r := h.root i h1 h2
    have r' := h'.root i h1 h2
    have p := h.pos i h1 h2
    have p' := h'.pos i h1 h2
    rw [S.same i h1 h2] at r r'
    have e : (w i - w' i) * (w i + w' i - 2 * t i i) = 0 := by linear_combination r - r'
    rcases mul_eq_zero.mp e with e | e
    · exact sub_eq_zero.mp e
    · exfalso
      have := congrArg Complex.im e
      simp at this
      linarith
  intro k hk
  by_cases h1 : ∃ j, j + 1 = k ∧ t k j ≠ 0
  · obtain ⟨j, e, hj⟩ := h1
    subst e
    rw [h.conj j hk hj, h'.conj j hk hj, first j hk hj]
  · by_cases h2 : k + 1 < n ∧ t (k + 1) k ≠ 0
    · exact first k h2.1 h2.2
    · have a1 : k + 1 < n → t (k + 1) k = 0 := by
        intro hh
        by_contra hx
        exact h2 ⟨hh, hx⟩
      have a2 : ∀ j, j + 1 = k → t k j = 0 := by
        intro j e
        by_contra hx
        exact h1 ⟨j, e, hx⟩
      rw [h.single k hk a1 a2, h'.single k hk a1 a2]

theorem SelectedFirst.congr {sel : ℕ → Bool} {w0 w0' w : ℕ → ℂ} (h : SelectedFirst n sel w0 w)
    (e : ∀ k, k < n → w0 k = w0' k) : SelectedFirst n sel w0' w := by
  unfold SelectedFirst at *
  have : ((List.range n).filter sel).map w0 = ((List.range n).filter sel).map w0' := by
    apply List.map_congr_left
    intro k hk
    simp only [List.mem_filter, List.mem_range] at hk
    exact e k hk.1
  rw [← this]
  exact h

theorem splits_iff {t : Arr ℝ} {sel : ℕ → Bool} :
    splits n sel t = true ↔ ∃ i, i + 1 < n ∧ t (i + 1) i ≠ 0 ∧ sel i ≠ sel (i + 1) := by
  simp only [splits, List.any_eq_true, mem_blockpos, bne_iff_ne]
  constructor
  · rintro ⟨i, ⟨a, b⟩, c⟩
    exact ⟨i, a, b, c⟩
  · rintro ⟨i, a, b, c⟩
    exact ⟨i, ⟨a, b⟩, c⟩

theorem splits_upper {t : Arr ℂ} {sel : ℕ → Bool} (h : UpperTri n t) : splits n sel t = false := by
  have : blockpos n t = [] := by
    rw [List.eq_nil_iff_forall_not_mem]
    intro i hi
    rw [mem_blockpos] at hi
    exact hi.2 (h _ _ hi.1 (by omega))
  simp [splits, this]

theorem ofReal_map_mul (A B : Matrix (Fin n) (Fin n) ℝ) : (A * B).map (fun x : ℝ => (x : ℂ)) =
    A.map (fun x : ℝ => (x : ℂ)) * B.map (fun x : ℝ => (x : ℂ)) :=
  Matrix.map_mul (f := Complex.ofRealHom)

theorem numSel_le (n : ℕ) (sel : ℕ → Bool) : numSel n sel ≤ n := by
  have := List.length_filter_le sel (List.range n)
  simpa [numSel] using this

/-- From `A Q = Q T` and `T` block triangular. -/
theorem invariant_core {m : ℕ} (hm : m ≤ n) (A Q T : Matrix (Fin n) (Fin n) ℂ)
    (h : A * Q = Q * T) (hT : ∀ r c : Fin n, m ≤ r.val → c.val < m → T r c = 0) :
    ∀ v ∈ Submodule.span ℂ {v | ∃ k : Fin n, k.val < m ∧ v = fun r => Q r k},
      A *ᵥ v ∈ Submodule.span ℂ {v | ∃ k : Fin n, k.val < m ∧ v = fun r => Q r k} := by
  intro v hv
  induction hv using Submodule.span_induction with
  | mem v hv =>
    obtain ⟨k, hk, rfl⟩ := hv
    have e : A *ᵥ (fun r => Q r k) = ∑ j, T j k • (fun r => Q r j) := by
      funext r
      have := congrFun (congrFun h r) k
      rw [Matrix.mul_apply, Matrix.mul_apply] at this
      simp only [Matrix.mulVec, dotProduct, Finset.sum_apply, Pi.smul_apply, smul_eq_mul]
      rw [this]
      exact Finset.sum_congr rfl (fun j _ => mul_comm _ _)
    rw [e]
    apply Submodule.sum_mem
    intro j _
    by_cases hj : j.val < m
    · exact Submodule.smul_mem _ _ (Submodule.subset_span ⟨j, hj, rfl⟩)
    · rw [hT j k (by omega) hk, zero_smul]
      exact Submodule.zero_mem _
  | zero => simp
  | add x y _ _ hx hy => rw [Matrix.mulVec_add]; exact Submodule.add_mem _ hx hy
  | smul a x _ hx => rw [Matrix.mulVec_smul]; exact Submodule.smul_mem _ _ hx

theorem invariant_of {m : ℕ} (hm : m ≤ n) {A : Matrix (Fin n) (Fin n) ℂ} {f : Form} {w : ℕ → ℂ}
    (h : IsSchurOf n A f w)
    (hl : match f with | .real t _ => LeadingBlock n m t | .cplx t _ => LeadingBlock n m t) :
    Invariant n m A f := by
  have key : ∀ Q T : Matrix (Fin n) (Fin n) ℂ, A * Q = Q * T →
      (∀ r c : Fin n, m ≤ r.val → c.val < m → T r c = 0) →
      (∀ k : Fin n, f.vec n k = fun r => Q r k) → Invariant n m A f := by
    intro Q T h1 h2 h3
    have e : {v | ∃ k, k < m ∧ v = f.vec n k} =
        {v | ∃ k : Fin n, k.val < m ∧ v = fun r => Q r k} := by
      ext v
      constructor
      · rintro ⟨k, hk, rfl⟩
        exact ⟨⟨k, by omega⟩, hk, h3 ⟨k, by omega⟩⟩
      · rintro ⟨k, hk, rfl⟩
        exact ⟨k, hk, (h3 k).symm⟩
    unfold Invariant
    rw [e]
    exact invariant_core hm A Q T h1 h2
  cases h with
  | real t q w ht hq hA hw =>
    refine key ((mat n q).map (fun x : ℝ => (x : ℂ))) ((mat n t).map (fun x : ℝ => (x : ℂ))) ?_ ?_ ?_
    · have o : (mat n q)ᵀ * mat n q = 1 := by
        have := (mem_orthogonalGroup_iff' (Fin n) ℝ).mp hq
        exact this
      rw [← hA, ← ofReal_map_mul, ← ofReal_map_mul, Matrix.mul_assoc, o, Matrix.mul_one]
    · intro r c hr hc
      have := hl r c r.2 hr hc
      simp [mat, this]
    · intro k
      rfl
  | cplx t q w ht hq hA hw =>
    refine key (mat n q) (mat n t) ?_ ?_ ?_
    · have o : (mat n q)ᴴ * mat n q = 1 := mem_unitaryGroup_iff'.mp hq
      rw [← hA, Matrix.mul_assoc, o, Matrix.mul_one]
    · intro r c hr hc
      exact hl r c r.2 hr hc
    · intro k
      rfl

theorem upper_leading {t : Arr ℂ} (h : UpperTri n t) (m : ℕ) : LeadingBlock n m t := by
  intro r c hr h1 h2
  exact h r c hr (by omega)

/-- **C161**.  Let LAPACK's `trsen` do what it documents.  For every real Schur
form `(t, q)` of any size and every selection, `order_schur(select, t, q)`
either raises `LinAlgError` or returns a Schur form of the same matrix (together
with its list of eigenvalues) in which the selected eigenvalues come first, so
that the first Schur vectors span a subspace the matrix maps into itself.  The
result is complex exactly if a conjugate pair is separated, and
real otherwise; the recursion is at most two calls deep. -/
theorem C161_order (L : Trsen) (hL : TrsenOK n L) (sel : ℕ → Bool) (t q : Arr ℝ)
    (S : RealSchur n t) (hq : mat n q ∈ orthogonalGroup (Fin n) ℝ) (fuel : ℕ) (hf : 2 ≤ fuel) :
    orderSchur L n sel fuel (.real t (some q)) = .error .linAlg ∨
    ∃ f w, orderSchur L n sel fuel (.real t (some q)) = .ok (f, w) ∧
      IsSchurOf n ((mat n q * mat n t * (mat n q)ᵀ).map (fun x : ℝ => (x : ℂ))) f w ∧
      (∀ w0, EigList n t w0 → SelectedFirst n sel w0 w) ∧
      Invariant n (numSel n sel)
        ((mat n q * mat n t * (mat n q)ᵀ).map (fun x : ℝ => (x : ℂ))) f ∧
      ((∃ t' q', f = .cplx t' q') ↔
        ∃ i, i + 1 < n ∧ t (i + 1) i ≠ 0 ∧ sel i ≠ sel (i + 1)) := by
  obtain ⟨fuel, rfl⟩ : ∃ k, fuel = k + 2 := ⟨fuel - 2, by omega⟩
  by_cases hs : splits n sel t = true
  · have hs' := splits_iff.mp hs
    obtain ⟨i, hi, hb, hne⟩ := hs'
    obtain ⟨t2, q2, e, U, hu, hA, E⟩ := C160_convert t q S hq ⟨i, hi, hb⟩
    have hsu : splits n sel t2 = false := splits_upper U
    cases hr : L.cx sel t2 (some q2) with
    | none =>
      left
      simp [orderSchur, hs, e, hsu, hr, bind, Except.bind]
    | some res =>
      right
      obtain ⟨t', q', w⟩ := res
      obtain ⟨U', hw, hsel, V, hV, e1, e2⟩ := hL.cx_ok sel t2 (some q2) t' q' w U hr
      cases q' with
      | none => simp at e2
      | some q' =>
        have e2' : mat n q' = mat n q2 * V := by simpa using e2
        have V1 : V * Vᴴ = 1 := mem_unitaryGroup_iff.mp hV
        have IS : IsSchurOf n ((mat n q * mat n t * (mat n q)ᵀ).map (fun x : ℝ => (x : ℂ)))
            (.cplx t' (some q')) w := by
          refine IsSchurOf.cplx t' q' w U' ?_ ?_ hw
          · rw [e2']
            exact mul_mem hu hV
          · rw [← hA, e1, e2', conjTranspose_mul]
            calc mat n q2 * V * (Vᴴ * mat n t2 * V) * (Vᴴ * (mat n q2)ᴴ)
                = mat n q2 * (V * Vᴴ) * mat n t2 * (V * Vᴴ) * (mat n q2)ᴴ := by
                  simp only [Matrix.mul_assoc]
              _ = _ := by rw [V1]; simp
        refine ⟨.cplx t' (some q'), w, ?_, IS, ?_, ?_, ?_⟩
        · simp [orderSchur, hs, e, hsu, hr, bind, Except.bind]
        · intro w0 h0
          exact hsel.congr (fun k hk => (E.unique S h0 k hk))
        · exact invariant_of (numSel_le n sel) IS (upper_leading U' _)
        · exact ⟨fun _ => ⟨i, hi, hb, hne⟩, fun _ => ⟨t', some q', rfl⟩⟩
  · have hs0 : splits n sel t = false := by simpa using hs
    have ns : ¬ ∃ i, i + 1 < n ∧ t (i + 1) i ≠ 0 ∧ sel i ≠ sel (i + 1) := by
      rw [← splits_iff]
      exact hs
    have ns' : ∀ i, i + 1 < n → t (i + 1) i ≠ 0 → sel i = sel (i + 1) := by
      intro i h1 h2
      by_contra h3
      exact ns ⟨i, h1, h2, h3⟩
    cases hr : L.re sel t (some q) with
    | none =>
      left
      simp [orderSchur, hs0, hr]
    | some res =>
      right
      obtain ⟨t', q', w⟩ := res
      obtain ⟨S', hl, hw, hsel, V, hV, e1, e2⟩ := hL.re_ok sel t (some q) t' q' w S ns' hr
      cases q' with
      | none => simp at e2
      | some q' =>
        have e2' : mat n q' = mat n q * V := by simpa using e2
        have V1 : V * Vᵀ = 1 := (mem_orthogonalGroup_iff (Fin n) ℝ).mp hV
        have IS : IsSchurOf n ((mat n q * mat n t * (mat n q)ᵀ).map (fun x : ℝ => (x : ℂ)))
            (.real t' (some q')) w := by
          refine IsSchurOf.real t' q' w S' ?_ ?_ hw
          · rw [e2']
            exact mul_mem hq hV
          · congr 1
            rw [e1, e2', transpose_mul]
            calc mat n q * V * (Vᵀ * mat n t * V) * (Vᵀ * (mat n q)ᵀ)
                = mat n q * (V * Vᵀ) * mat n t * (V * Vᵀ) * (mat n q)ᵀ := by
                  simp only [Matrix.mul_assoc]
              _ = _ := by rw [V1]; simp
        refine ⟨.real t' (some q'), w, ?_, IS, hsel, ?_, ?_⟩
        · simp [orderSchur, hs0, hr]
        · exact invariant_of (numSel_le n sel) IS hl
        · constructor
          · rintro ⟨a, b, h⟩
            cases h
          · intro h
            exact absurd h ns

/-- The documented case `q = None`: whenever a conjugate pair is separated the
function raises an `AttributeError`, although `trsen` could reorder without `q`. -/
theorem C161_counterexample (L : Trsen) (sel : ℕ → Bool) (t : Arr ℝ) (fuel : ℕ)
    (h : ∃ i, i + 1 < n ∧ t (i + 1) i ≠ 0 ∧ sel i ≠ sel (i + 1)) :
    orderSchur L n sel (fuel + 1) (.real t none) = .error .attribute := by
  have hs := splits_iff.mpr h
  obtain ⟨i, h1, h2, _⟩ := h
  have : (blockpos n t).isEmpty = false := by
    cases hh : (blockpos n t) with
    | nil =>
      have := (mem_blockpos (n := n) (t := t)).mpr ⟨h1, h2⟩
      rw [hh] at this
      simp at this
    | cons a l => rfl
  simp [orderSchur, hs, convertR2C, this, bind, Except.bind]

/-! ## A concrete case -/

open Classical in
/-- A routine that succeeds only if nothing has to be moved: the selected
eigenvalues are already the first ones (and it is given a proper Schur form).
It fulfils the contract. -/
noncomputable def idTrsen (n : ℕ) : Trsen where
  re sel t q :=
    if h : (List.range n).filter sel = List.range (numSel n sel) ∧
        LeadingBlock n (numSel n sel) t ∧ ∃ w, EigList n t w then
      some (t, q, h.2.2.choose)
    else none
  cx sel t q :=
    if (List.range n).filter sel = List.range (numSel n sel) then some (t, q, fun k => t k k)
    else none

theorem idTrsen_ok (n : ℕ) : TrsenOK n (idTrsen n) := by
  constructor
  · intro sel t q t' q' w S _ h
    by_cases hc : (List.range n).filter sel = List.range (numSel n sel) ∧
        LeadingBlock n (numSel n sel) t ∧ ∃ w, EigList n t w
    · simp only [idTrsen, dif_pos hc, Option.some.injEq, Prod.mk.injEq] at h
      obtain ⟨rfl, rfl, rfl⟩ := h
      refine ⟨S, hc.2.1, hc.2.2.choose_spec, ?_, 1, one_mem _, by simp, by simp⟩
      intro w0 h0
      have self : ∀ w : ℕ → ℂ, SelectedFirst n sel w w := by
        intro w
        unfold SelectedFirst
        rw [hc.1]
      exact (self _).congr (hc.2.2.choose_spec.unique S h0)
    · simp only [idTrsen, dif_neg hc] at h
      cases h
  · intro sel t q t' q' w U h
    by_cases hc : (List.range n).filter sel = List.range (numSel n sel)
    · simp only [idTrsen, if_pos hc, Option.some.injEq, Prod.mk.injEq] at h
      obtain ⟨rfl, rfl, rfl⟩ := h
      refine ⟨U, fun _ _ => rfl, ?_, 1, one_mem _, by simp, by simp⟩
      unfold SelectedFirst
      rw [hc]
    · simp only [idTrsen, if_neg hc] at h
      cases h

theorem one_orth (n : ℕ) :
    mat n (fun r c => if r = c then (1 : ℝ) else 0) ∈ orthogonalGroup (Fin n) ℝ := by
  have : mat n (fun r c => if r = c then (1 : ℝ) else 0) = 1 := by
    ext x y
    simp [mat, Matrix.one_apply, Fin.ext_iff]
  rw [this]
  exact one_mem _

/-- For the form `exT` with eigenvalues `7, 3+2i, 3-2i, 5`, selecting the first
two separates the pair: the result is complex, and its first two eigenvalues are
`7` and the root with positive imaginary part. -/
theorem C161_example :
    ∃ t' q' w, orderSchur (idTrsen 4) 4 (fun k => decide (k < 2)) 2
        (.real exT (some (fun r c => if r = c then 1 else 0))) = .ok (.cplx t' q', w) ∧
      w 0 = 7 ∧ (w 1 - 3) * (w 1 - 3) = -4 ∧ 0 < (w 1).im := by
  have h := C161_order (idTrsen 4) (idTrsen_ok 4) (fun k => decide (k < 2)) exT
    (fun r c => if r = c then 1 else 0) exT_schur (one_orth 4) 2 le_rfl
  obtain ⟨t2, q2, e, U, hu, hA, E⟩ := C160_convert exT _ exT_schur (one_orth 4)
    ⟨1, by norm_num, by simp [exT]⟩
  have hs : splits 4 (fun k => decide (k < 2)) exT = true :=
    splits_iff.mpr ⟨1, by norm_num, by simp [exT], by simp⟩
  have hsu : splits 4 (fun k => decide (k < 2)) t2 = false := splits_upper U
  have hfil : (List.range 4).filter (fun k => decide (k < 2)) =
      List.range (numSel 4 (fun k => decide (k < 2))) := by decide
  refine ⟨t2, some q2, fun k => t2 k k, ?_, ?_, ?_, ?_⟩
  · simp only [orderSchur, hs, e, hsu, bind, Except.bind, idTrsen, hfil]
    simp
  · simpa [exT] using E.single 0 (by norm_num) (by simp [exT]) (by simp)
  · simpa [exT] using E.root 1 (by norm_num) (by simp [exT])
  · exact E.pos 1 (by norm_num) (by simp [exT])

end Kwant.Schur
