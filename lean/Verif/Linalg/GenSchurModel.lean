import Verif.Linalg.SchurOrder

/-!
# Model of the generalized Schur forms of `kwant/linalg/decomp_schur.py`

`convert_r2c_gen_schur` and `order_gen_schur`.
-/

set_option linter.unusedSectionVars false

namespace Kwant.Schur

open Matrix

/-- A generalized Schur form `(s, t, q, z)`, real or complex; `q` and `z` can
be `None`. -/
inductive GForm where
  | real (s t : Arr ℝ) (q z : Option (Arr ℝ))
  | cplx (s t : Arr ℂ) (q z : Option (Arr ℂ))

/-- LAPACK's `xTGSEN` as called by `lapack.tgsen` (lapack.pyx l.374-521), for
arrays of any size `n`.  `none` is `info > 0`.  The result is the reordered
`(s, t, q, z)` and the eigenvalues `alpha`, `beta`. -/
structure Tgsen where
  re : ℕ → (ℕ → Bool) → Arr ℝ → Arr ℝ → Option (Arr ℝ) → Option (Arr ℝ) →
    Option (Arr ℝ × Arr ℝ × Option (Arr ℝ) × Option (Arr ℝ) × (ℕ → ℂ) × (ℕ → ℂ))
  cx : ℕ → (ℕ → Bool) → Arr ℂ → Arr ℂ → Option (Arr ℂ) → Option (Arr ℂ) →
    Option (Arr ℂ × Arr ℂ × Option (Arr ℂ) × Option (Arr ℂ) × (ℕ → ℂ) × (ℕ → ℂ))

/-- `gen_schur` of a complex 2x2 pencil (decomp_schur.py l.279-355 calling LAPACK's
`gges`): `(sb, tb, qb, zb, alphab)`, or `none` if the iteration does not converge. -/
abbrev Gges2 := Mat2 → Mat2 → Option (Mat2 × Mat2 × Mat2 × Mat2 × (Fin 2 → ℂ))

/-- A 2x2 array as an array. -/
def ofM (b : Mat2) : Arr ℂ := fun r c =>
  if r = 0 then (if c = 0 then b 0 0 else b 0 1) else (if c = 0 then b 1 0 else b 1 1)

/-- The four 2x2 arrays for one block. -/
structure Four where
  sb : Mat2
  tb : Mat2
  qb : Mat2
  zb : Mat2

/-- Treatment of one block up to the assignments (decomp_schur.py l.517-526);
`ord2` stands for `order_gen_schur([False, True], ...)`. -/
noncomputable def conv2 (G : Gges2) (ord2 : Four → Except Err Four) (s t : Mat2) :
    Except Err Four :=
  match G s t with
  | none => .error .linAlg
  | some (sb, tb, qb, zb, alphab) =>
    if (alphab 0).im < (alphab 1).im then ord2 ⟨sb, tb, qb, zb⟩
    else .ok ⟨sb, tb, qb, zb⟩

/-- The arrays the loop changes. -/
structure GState where
  s2 : Arr ℂ
  t2 : Arr ℂ
  q2 : Option (Arr ℂ)
  z2 : Option (Arr ℂ)

/-- `if q is not None: q2[:, i:i+2] = np.dot(q[:, i:i+2], u)` (decomp_schur.py
l.536-539). -/
def optCols (i : ℕ) (u : Mat2) : Option (Arr ℂ) → Option (Arr ℂ) → Option (Arr ℂ)
  | some q, some q2 => some (setCols i u q q2)
  | _, q2 => q2

/-- One turn of the loop of `convert_r2c_gen_schur` (decomp_schur.py l.511-539);
`q`, `z` are the function's arguments. -/
noncomputable def gconvStep (G : Gges2) (ord2 : Four → Except Err Four)
    (q z : Option (Arr ℂ)) (st : GState) (i : ℕ) : Except Err GState := do
  let b ← conv2 G ord2 (blk i st.s2) (blk i st.t2)
  let s2 := setBlock i b.sb st.s2
  let t2 := setBlock i b.tb st.t2
  let s2 := mulAbove i b.zb s2
  let s2 := mulRight i b.qbᴴ s2
  let t2 := mulAbove i b.zb t2
  let t2 := mulRight i b.qbᴴ t2
  let q2 := optCols i b.qb q st.q2
  let z2 := optCols i b.zb z st.z2
  .ok ⟨s2, t2, q2, z2⟩

/-- `convert_r2c_gen_schur(s, t, q, z)` (decomp_schur.py l.438-548).  The checks of
the shapes (l.482-494) are not modelled. -/
noncomputable def gconvert (G : Gges2) (ord2 : Four → Except Err Four) (n : ℕ) :
    GForm → Except Err GForm
  | .real s t q z =>
    let bp := blockpos n s
    if bp.isEmpty then .ok (.real s t q z)
    else do
      let st ← bp.foldlM (gconvStep G ord2 (q.map toC) (z.map toC))
        ⟨toC s, toC t, q.map toC, z.map toC⟩
      .ok (.cplx st.s2 st.t2 st.q2 st.z2)
  | .cplx s t q z =>
    let bp := blockpos n s
    if bp.isEmpty then .ok (.cplx s t q z)
    else do
      let st ← bp.foldlM (gconvStep G ord2 q z) ⟨s, t, q, z⟩
      .ok (.cplx st.s2 st.t2 st.q2 st.z2)

/-- The number of values `convert_r2c_gen_schur` returns (decomp_schur.py l.541-548). -/
def GForm.length : GForm → ℕ
  | .real _ _ q z => 2 + (if q.isSome then 1 else 0) + (if z.isSome then 1 else 0)
  | .cplx _ _ q z => 2 + (if q.isSome then 1 else 0) + (if z.isSome then 1 else 0)

/-- What `order_gen_schur` returns. -/
structure GRes where
  form : GForm
  alpha : ℕ → ℂ
  beta : ℕ → ℂ

/-- `order_gen_schur([False, True], sb, tb, qb, zb)` as used for a 2x2 block
(decomp_schur.py l.524-526), unpacked into four arrays. -/
def unpack4 : Except Err GRes → Except Err Four
  | .ok ⟨.cplx s t (some q) (some z), _, _⟩ => .ok ⟨blk 0 s, blk 0 t, blk 0 q, blk 0 z⟩
  | .ok _ => .error .value
  | .error e => .error e

/-- `order_gen_schur(select, s, t, q, z)` (decomp_schur.py l.358-435).  The
statement `s, t, q, z = convert_r2c_gen_schur(s, t, q, z)` (l.432) needs four values. -/
noncomputable def orderGen (L : Tgsen) (G : Gges2) :
    ℕ → ℕ → (ℕ → Bool) → GForm → Except Err GRes
  | 0, _, _, _ => .error .recursion
  | fuel + 1, n, sel, f =>
    let ord2 := fun b : Four => unpack4 (orderGen L G fuel 2 (fun k => k == 1)
      (.cplx (ofM b.sb) (ofM b.tb) (some (ofM b.qb)) (some (ofM b.zb))))
    let sp := match f with
      | .real s _ _ _ => splits n sel s
      | .cplx s _ _ _ => splits n sel s
    if sp then do
      let f' ← gconvert G ord2 n f
      if f'.length = 4 then orderGen L G fuel n sel f' else .error .value
    else match f with
      | .real s t q z => match L.re n sel s t q z with
        | none => .error .linAlg
        | some (s', t', q', z', a, b) => .ok ⟨.real s' t' q' z', a, b⟩
      | .cplx s t q z => match L.cx n sel s t q z with
        | none => .error .linAlg
        | some (s', t', q', z', a, b) => .ok ⟨.cplx s' t' q' z', a, b⟩

/-! ## Specification -/

/-- The determinant of the 2x2 pencil `s - x t` at rows and columns `i`, `i+1`. -/
noncomputable def pdet (s t : Arr ℝ) (i : ℕ) (x : ℂ) : ℂ :=
  (s i i - x * t i i) * (s (i + 1) (i + 1) - x * t (i + 1) (i + 1)) -
    (s i (i + 1) - x * t i (i + 1)) * (s (i + 1) i - x * t (i + 1) i)

/-- A real generalized Schur form as LAPACK returns it: `s` is quasi-triangular with
2x2 blocks that do not overlap, `t` is triangular with a diagonal that is not
negative, and for each 2x2 block the diagonal of `t` is positive and the block has no real
eigenvalue. -/
structure RealGSchur (n : ℕ) (s t : Arr ℝ) : Prop where
  lower : ∀ r c, r < n → c + 1 < r → s r c = 0
  apart : ∀ i, i + 2 < n → s (i + 1) i ≠ 0 → s (i + 2) (i + 1) = 0
  upper : UpperTri n t
  nonneg : ∀ k, k < n → 0 ≤ t k k
  pos0 : ∀ i, i + 1 < n → s (i + 1) i ≠ 0 → 0 < t i i
  pos1 : ∀ i, i + 1 < n → s (i + 1) i ≠ 0 → 0 < t (i + 1) (i + 1)
  nonreal : ∀ i, i + 1 < n → s (i + 1) i ≠ 0 → ∀ x : ℝ, pdet s t i x ≠ 0

/-- A complex generalized Schur form. -/
structure CplxGSchur (n : ℕ) (s t : Arr ℂ) : Prop where
  upper_s : UpperTri n s
  upper_t : UpperTri n t
  nonneg : ∀ k, k < n → ∃ x : ℝ, 0 ≤ x ∧ t k k = x

/-- Two pairs `(alpha, beta)` describe the same generalized eigenvalue
(which can be infinite, or undetermined if both numbers vanish). -/
def SameEig (a b a' b' : ℂ) : Prop :=
  a * b' = a' * b ∧ ((a = 0 ∧ b = 0) ↔ (a' = 0 ∧ b' = 0))

/-- `alpha`, `beta` is the list of generalized eigenvalues that `gen_schur`
documents for a real form: the one with positive imaginary part first. -/
structure GEigList (n : ℕ) (s t : Arr ℝ) (alpha beta : ℕ → ℂ) : Prop where
  single : ∀ k, k < n → (k + 1 < n → s (k + 1) k = 0) → (∀ j, j + 1 = k → s k j = 0) →
    SameEig (alpha k) (beta k) (s k k) (t k k)
  fin0 : ∀ i, i + 1 < n → s (i + 1) i ≠ 0 → beta i ≠ 0
  fin1 : ∀ i, i + 1 < n → s (i + 1) i ≠ 0 → beta (i + 1) ≠ 0
  root : ∀ i, i + 1 < n → s (i + 1) i ≠ 0 → pdet s t i (alpha i / beta i) = 0
  pos : ∀ i, i + 1 < n → s (i + 1) i ≠ 0 → 0 < (alpha i / beta i).im
  conj : ∀ i, i + 1 < n → s (i + 1) i ≠ 0 →
    alpha (i + 1) / beta (i + 1) = (starRingEnd ℂ) (alpha i / beta i)

/-- The eigenvalues `(a', b')` are a rearrangement of `(a, b)` with the selected
ones first. -/
def GSelectedFirst (n : ℕ) (sel : ℕ → Bool) (a b a' b' : ℕ → ℂ) : Prop :=
  ∃ σ : Equiv.Perm (Fin n), ∀ k : Fin n,
    SameEig (a' k) (b' k) (a (σ k)) (b (σ k)) ∧ (k.val < numSel n sel ↔ sel (σ k) = true)

/-- What LAPACK documents for `zgges` of a 2x2 pencil. -/
def GgesOK (G : Gges2) : Prop :=
  ∀ s t sb tb qb zb al, G s t = some (sb, tb, qb, zb, al) →
    qb ∈ unitaryGroup (Fin 2) ℂ ∧ zb ∈ unitaryGroup (Fin 2) ℂ ∧
    qb * sb * zbᴴ = s ∧ qb * tb * zbᴴ = t ∧ sb 1 0 = 0 ∧ tb 1 0 = 0 ∧
    (∀ k, al k = sb k k) ∧ ∀ k, ∃ x : ℝ, 0 ≤ x ∧ tb k k = x

/-- What LAPACK documents for `xTGSEN`. -/
structure TgsenOK (L : Tgsen) : Prop where
  re_ok : ∀ n sel s t q z s' t' q' z' a b, RealGSchur n s t →
    (∀ i, i + 1 < n → s (i + 1) i ≠ 0 → sel i = sel (i + 1)) →
    L.re n sel s t q z = some (s', t', q', z', a, b) →
      RealGSchur n s' t' ∧ LeadingBlock n (numSel n sel) s' ∧ GEigList n s' t' a b ∧
      (∀ a0 b0, GEigList n s t a0 b0 → GSelectedFirst n sel a0 b0 a b) ∧
      ∃ VL ∈ orthogonalGroup (Fin n) ℝ, ∃ VR ∈ orthogonalGroup (Fin n) ℝ,
        mat n s' = VLᵀ * mat n s * VR ∧ mat n t' = VLᵀ * mat n t * VR ∧
        q'.map (mat n) = q.map (fun q => mat n q * VL) ∧
        z'.map (mat n) = z.map (fun z => mat n z * VR)
  cx_ok : ∀ n sel s t q z s' t' q' z' a b, CplxGSchur n s t →
    L.cx n sel s t q z = some (s', t', q', z', a, b) →
      CplxGSchur n s' t' ∧ (∀ k, k < n → a k = s' k k ∧ b k = t' k k) ∧
      GSelectedFirst n sel (fun k => s k k) (fun k => t k k) a b ∧
      ∃ VL ∈ unitaryGroup (Fin n) ℂ, ∃ VR ∈ unitaryGroup (Fin n) ℂ,
        mat n s' = VLᴴ * mat n s * VR ∧ mat n t' = VLᴴ * mat n t * VR ∧
        q'.map (mat n) = q.map (fun q => mat n q * VL) ∧
        z'.map (mat n) = z.map (fun z => mat n z * VR)

end Kwant.Schur
