import Verif.Leads.SelfEnergy
import Mathlib.Data.Fin.Tuple.Sort
import Mathlib.Data.Prod.Lex
import Mathlib.Analysis.SpecialFunctions.Complex.Arg

/-!
Model of kwant/physics/leads.py, `phs_symmetrization` (l.466-608) and `make_proper_modes` (l.611-870).

Simplifications: exact complex arithmetic (`np.allclose` is equality, the casts between real and complex arrays do nothing); the routines of numpy and scipy
are arbitrary functions, whose contracts are in `ModeNum.Ok` and `ModeNum.PhsOk`; the `assert` statements about computed values (l.520, 524, 538, 594-596, 605, 607) are left out.
-/

set_option linter.unusedSectionVars false

namespace Kwant.Leads
open Matrix Complex

variable {n r : ℕ}

/-- The numerical routines used, and the two tolerances `eps`, `vel_eps`. -/
structure ModeNum (n : ℕ) where
  /-- `la.qr(mode='economic')` -/
  qr : {k : ℕ} → Matrix (Fin n) (Fin k) ℂ → Matrix (Fin n) (Fin k) ℂ × Matrix (Fin k) (Fin k) ℂ
  /-- `la.qr(mode='economic', pivoting=True)[0]` -/
  qrPivot : {k : ℕ} → Matrix (Fin n) (Fin k) ℂ → Matrix (Fin n) (Fin k) ℂ
  /-- `la.solve(r.T, b.T).T` -/
  solveRight : {k : ℕ} → {l : Type} → Matrix (Fin k) (Fin k) ℂ → Matrix l (Fin k) ℂ → Matrix l (Fin k) ℂ
  /-- `la.eigh` -/
  eigh : {k : ℕ} → Matrix (Fin k) (Fin k) ℂ → (Fin k → ℝ) × Matrix (Fin k) (Fin k) ℂ
  /-- `la.schur` -/
  schur : {k : ℕ} → Matrix (Fin k) (Fin k) ℂ → Matrix (Fin k) (Fin k) ℂ × Matrix (Fin k) (Fin k) ℂ
  /-- `la.lstsq(...)[0]` -/
  lstsq : {k l : ℕ} → Matrix (Fin n) (Fin k) ℂ → Matrix (Fin n) (Fin l) ℂ → Matrix (Fin k) (Fin l) ℂ
  /-- `np.argsort` -/
  argsort : {k : ℕ} → (Fin k → ℝ) → Equiv.Perm (Fin k)
  /-- `np.argmax` -/
  argmax : {k : ℕ} → (Fin (k + 1) → ℝ) → Fin (k + 1)
  eps : ℝ
  velEps : ℝ

/-- Contracts of the numerical routines, see also `ModeNum.PhsOk`. -/
structure ModeNum.Ok (e : ModeNum n) : Prop where
  qr : ∀ {k : ℕ} (a : Matrix (Fin n) (Fin k) ℂ), k ≤ n → (e.qr a).1 * (e.qr a).2 = a ∧ (e.qr a).1ᴴ * (e.qr a).1 = 1
  solveRight : ∀ {k : ℕ} {l : Type} (m : Matrix (Fin k) (Fin k) ℂ) (b : Matrix l (Fin k) ℂ), IsUnit m.det → e.solveRight m b = b * m⁻¹
  eigh : ∀ {k : ℕ} (m : Matrix (Fin k) (Fin k) ℂ), mᴴ = m → m = (e.eigh m).2 * diagonal (fun i => ((e.eigh m).1 i : ℂ)) * (e.eigh m).2ᴴ ∧
    (e.eigh m).2ᴴ * (e.eigh m).2 = 1 ∧ Monotone (e.eigh m).1
  lstsq : ∀ {k l : ℕ} (a : Matrix (Fin n) (Fin k) ℂ) (x : Matrix (Fin k) (Fin l) ℂ), (∀ y, a *ᵥ y = 0 → y = 0) → e.lstsq a (a * x) = x
  argsort : ∀ {k : ℕ} (f : Fin k → ℝ), Monotone (f ∘ e.argsort f)
  eps : 0 < e.eps
  velEps : 0 < e.velEps

/-- Contracts of the routines that are only used in `phs_symmetrization`. -/
structure ModeNum.PhsOk (e : ModeNum n) : Prop where
  qrPivot : ∀ {k : ℕ} (a : Matrix (Fin n) (Fin k) ℂ), k ≤ n → (e.qrPivot a)ᴴ * e.qrPivot a = 1 ∧ ∃ (σ : Equiv.Perm (Fin k)) (t : Matrix (Fin k) (Fin k) ℂ),
    a.submatrix id σ = e.qrPivot a * t ∧ (∀ i j, j < i → t i j = 0) ∧ ∀ i j, i ≤ j → ‖t j j‖ ≤ ‖t i i‖
  schur : ∀ {k : ℕ} (m : Matrix (Fin k) (Fin k) ℂ), m = (e.schur m).2 * (e.schur m).1 * (e.schur m).2ᴴ ∧ (e.schur m).2ᴴ * (e.schur m).2 = 1 ∧
    ∀ i j, j < i → (e.schur m).1 i j = 0
  argmax : ∀ {k : ℕ} (f : Fin (k + 1) → ℝ) i, f i ≤ f (e.argmax f)

/-! ### `phs_symmetrization` -/

/-- `Pdot` (l.502-504) -/
def pdot (ph : Matrix (Fin n) (Fin n) ℂ) {k : ℕ} (a : Matrix (Fin n) (Fin k) ℂ) : Matrix (Fin n) (Fin k) ℂ := ph * a.map (starRingEnd ℂ)

/-- `shift` (l.537-540): the branch cut is placed in the middle of the largest gap between the phases of the eigenvalues.  `np.sort(np.angle(vals))` are the
phases in the order given by `argsort`. -/
noncomputable def branchShift (e : ModeNum n) {k : ℕ} (vals : Fin (k + 1) → ℂ) : ℝ :=
  let ang : Fin (k + 1) → ℝ := fun i => (vals i).arg
  let phases : Fin (k + 1) → ℝ := ang ∘ e.argsort ang
  let dph : Fin (k + 1) → ℝ := fun i => if h : i.val + 1 < k + 1 then phases ⟨i.val + 1, h⟩ - phases i else phases 0 + 2 * Real.pi - phases i
  let i := e.argmax dph
  let shift : ℝ := -Real.pi - (phases i + dph i / 2)
  shift

/-- The square roots of the eigenvalues (l.542) -/
noncomputable def sqrtVals (e : ModeNum n) {k : ℕ} (vals : Fin (k + 1) → ℂ) : Fin (k + 1) → ℂ :=
  let shift := branchShift e vals
  fun j => (vals j * cexp (I * shift)) ^ (1 / 2 : ℂ) * cexp (-(1 / 2 : ℂ) * I * shift)

/-- The particle-hole symmetric wave functions if `P^2 = 1` (l.517-542) -/
noncomputable def phsPlus (e : ModeNum n) {k : ℕ} (wfs : Matrix (Fin n) (Fin (k + 1)) ℂ) (U : Matrix (Fin (k + 1)) (Fin (k + 1)) ℂ) :
    Matrix (Fin n) (Fin (k + 1)) ℂ :=
  let d := e.schur U
  wfs * (d.2 * diagonal (sqrtVals e d.1.diag) * d.2ᴴ)

/-- The list `new_wfs` if `P^2 = -1` (l.545-601).  The recursion for two columns less is the next iteration of the loop; its case of two columns is the
special treatment of the last iteration. -/
noncomputable def phsPairs (e : ModeNum n) (ph : Matrix (Fin n) (Fin n) ℂ) : {k : ℕ} → Matrix (Fin n) (Fin k) ℂ → List (Fin n → ℂ)
  | 0, _ => []
  | 1, _ => []
  | 2, wfs =>
    let wf := wfs.col 0
    [wf, ph *ᵥ star wf]
  | _ + 3, wfs =>
    let wf := wfs.col 0
    let Pwf := ph *ᵥ star wf
    let wfs' := wfs.submatrix id Fin.succ
    let projector := wfs' * wfs'ᴴ - vecMulVec Pwf (star Pwf)
    let q := e.qrPivot (projector * wfs')
    wf :: Pwf :: phsPairs e ph (q.submatrix id Fin.castSucc)

/-- `col / npl.norm(col)` (l.602) -/
noncomputable def normalize (v : Fin n → ℂ) : Fin n → ℂ := fun i => v i / (Real.sqrt (∑ j, ‖v j‖ ^ 2) : ℂ)

open Classical in
/-- `phs_symmetrization` (l.466-608) -/
noncomputable def phsSymmetrization (e : ModeNum n) (ph : Matrix (Fin n) (Fin n) ℂ) : {k : ℕ} → Matrix (Fin n) (Fin k) ℂ →
    Except LErr (Matrix (Fin n) (Fin k) ℂ × (Fin k → ℕ))
  | 0, _ => .error .valueError
  | k + 1, wfs =>
    let U := wfsᴴ * pdot ph wfs
    if U * Uᴴ ≠ 1 then .error .valueError
    else
      let Psq := U * U.map (starRingEnd ℂ)
      if Psq = 1 then .ok (phsPlus e wfs U, fun _ => 0)
      else if Psq = -1 then
        let l := phsPairs e ph wfs
        if h : l.length = k + 1 then .ok (of fun i j => normalize (l.get (j.cast h.symm)) i, fun j => j.val)
        else .error .valueError
      else .error .valueError

/-! ### `make_proper_modes` -/

/-- The arrays `psi`, `full_psi`, `lmbdainv`, `velocities`, `TRIM_PHS_sort`, or the parts of them for some of the modes. -/
structure Modes (n r k : ℕ) where
  psi : Matrix (Fin r ⊕ Fin r) (Fin k) ℂ
  full : Matrix (Fin n) (Fin k) ℂ
  lam : Fin k → ℂ
  vel : Fin k → ℝ
  trim : Fin k → ℕ

open Classical in
/-- Assignment to the columns of an array with an index array: `a[..., sel] = b`. -/
noncomputable def upd {α : Type} {N k : ℕ} (sel : Fin k → Fin N) (a : Fin N → α) (b : Fin k → α) : Fin N → α :=
  fun j => if h : ∃ i, sel i = j then b h.choose else a j

/-- `a[:, sel] = b` -/
noncomputable def updCols {R : Type} {N k : ℕ} (sel : Fin k → Fin N) (a : Matrix R (Fin N) ℂ) (b : Matrix R (Fin k) ℂ) : Matrix R (Fin N) ℂ :=
  of fun i j => upd sel (fun j => a i j) (fun j => b i j) j

/-- The part of the arrays for the modes `sel`. -/
def Modes.take {N k : ℕ} (m : Modes n r N) (sel : Fin k → Fin N) : Modes n r k :=
  ⟨m.psi.submatrix id sel, m.full.submatrix id sel, m.lam ∘ sel, m.vel ∘ sel, m.trim ∘ sel⟩

noncomputable def Modes.put {N k : ℕ} (m : Modes n r N) (sel : Fin k → Fin N) (o : Modes n r k) : Modes n r N :=
  ⟨updCols sel m.psi o.psi, updCols sel m.full o.full, upd sel m.lam o.lam, upd sel m.vel o.vel, upd sel m.trim o.trim⟩

/-- `sort_order` (l.647) -/
noncomputable def sortOrder (e : ModeNum n) {N : ℕ} (lam : Fin N → ℂ) : List (Fin N) :=
  let l := (List.finRange N).map (e.argsort fun i => (lam i).arg)
  l ++ l

open Classical in
/-- `boundaries` (l.648-653) -/
noncomputable def boundaries (e : ModeNum n) {N : ℕ} (lam : Fin N → ℂ) : List ℕ :=
  let so := (sortOrder e lam).map lam
  let b := ((List.range (2 * N - 1)).filter fun i => decide (‖so.getD (i + 1) 0 - so.getD i 0‖ > e.eps)).map (· + 1)
  if b = [] ∧ N ≠ 0 then [0, N] else b

/-- `zip(boundaries[:-1], boundaries[1:])` until the `break` (l.655-657); `b0` is `boundaries[0]`. -/
def intervals (N : ℕ) (bs : List ℕ) : List (ℕ × ℕ) := (bs.zip bs.tail).takeWhile fun iv => iv.2 ≤ bs.headD 0 + N

/-- The values that `indx` takes in the loop (l.655-659) -/
noncomputable def clusters (e : ModeNum n) {N : ℕ} (lam : Fin N → ℂ) : List (List (Fin N)) :=
  (intervals N (boundaries e lam)).map fun iv => ((sortOrder e lam).take iv.2).drop iv.1

/-- Orthogonalization of the wave functions (l.682-692) -/
noncomputable def orthStep (e : ModeNum n) {k : ℕ} (m : Modes n r k) : Modes n r k :=
  let d := e.qr m.full
  { m with full := d.1, psi := e.solveRight d.2 m.psi }

/-- `vel_op` (l.706-707) -/
noncomputable def velOpMat {k : ℕ} (psi : Matrix (Fin r ⊕ Fin r) (Fin k) ℂ) : Matrix (Fin k) (Fin k) ℂ :=
  let w := (-I) • (psi.toRows₂ᴴ * psi.toRows₁)
  w + wᴴ

/-- Diagonalization of the velocity operator (l.706-720) -/
noncomputable def rotStep (e : ModeNum n) {k : ℕ} (m : Modes n r k) : Modes n r k :=
  let d := e.eigh (velOpMat m.psi)
  { m with psi := m.psi * d.2, full := m.full * d.2, vel := d.1 }

open Classical in
/-- The groups of modes with the same velocity (l.757-760), as lists of positions. -/
noncomputable def velGroups (e : ModeNum n) {k : ℕ} (vel : Fin k → ℝ) : List (List (Fin k)) :=
  let l := List.finRange k
  let b := (List.range (k - 1)).filter fun i => decide (|(l.map vel).getD i 0 - (l.map vel).getD (i + 1) 0| > e.velEps)
  let inds := 0 :: b.map (· + 1) ++ [k]
  (inds.zip inds.tail).map fun iv => (l.take iv.2).drop iv.1

/-- The loop over the groups (l.767-785): the columns of a group are replaced. -/
noncomputable def phsGroups (e : ModeNum n) (ph : Matrix (Fin n) (Fin n) ℂ) {k : ℕ} (orig : Matrix (Fin n) (Fin k) ℂ) :
    List (List (Fin k)) → Matrix (Fin n) (Fin k) ℂ × (Fin k → ℕ) → Except LErr (Matrix (Fin n) (Fin k) ℂ × (Fin k → ℕ))
  | [], s => .ok s
  | g :: gs, s =>
    match phsSymmetrization e ph (orig.submatrix id g.get) with
    | .error x => .error x
    | .ok o => phsGroups e ph orig gs (updCols g.get s.1 o.1, upd g.get s.2 o.2)

open Classical in
/-- Treatment of the modes at a time-reversal invariant momentum (l.731-794) -/
noncomputable def trimStep (e : ModeNum n) (ph : Option (Matrix (Fin n) (Fin n) ℂ)) {k : ℕ} (m : Modes n r k) : Except LErr (Modes n r k) :=
  match ph with
  | none => .ok m
  | some ph =>
    if ∀ i, |(|(m.lam i).re| - 1)| < e.eps then
      if k % 2 = 1 then .error .assertionError
      else
        let lam : ℂ := if ∀ i, |(m.lam i).re - 1| < e.eps then 1 else -1
        match phsGroups e ph m.full (velGroups e m.vel) (m.full, m.trim) with
        | .error x => .error x
        | .ok o =>
          let rot := o.1ᴴ * m.full
          .ok { psi := m.psi * rotᴴ, full := o.1, lam := fun _ => lam, vel := m.vel, trim := o.2 }
    else .ok m

/-- The first `k // 2` positions -/
def firstHalf (k : ℕ) : Fin (k / 2) → Fin k := Fin.castLE (Nat.div_le_self k 2)

/-- The following `k // 2` positions; all of the others if `k` is even -/
def secondHalf (k : ℕ) : Fin (k / 2) → Fin k := fun i => ⟨k / 2 + i.val, by omega⟩

/-- Chiral symmetry (l.797-804).  For an odd number of modes the assignment fails (for three modes numpy's broadcasting makes it succeed). -/
noncomputable def chiralStep (chiral tr : Option (Matrix (Fin n) (Fin n) ℂ)) {k : ℕ} (m : Modes n r k) : Except LErr (Modes n r k) :=
  match chiral, tr with
  | some c, none =>
    if k % 2 = 1 then .error .valueError
    else
      let outOrig := m.full.submatrix id (secondHalf k)
      let out := c * m.full.submatrix id (firstHalf k)
      let rot := outOrigᴴ * out
      .ok { m with full := updCols (secondHalf k) m.full out, psi := updCols (secondHalf k) m.psi (m.psi.submatrix id (secondHalf k) * rot) }
  | _, _ => .ok m

/-- The discrete symmetries of the lead: `time_reversal`, `particle_hole`, `chiral`. -/
structure Symm (n : ℕ) where
  tr : Option (Matrix (Fin n) (Fin n) ℂ)
  ph : Option (Matrix (Fin n) (Fin n) ℂ)
  chiral : Option (Matrix (Fin n) (Fin n) ℂ)

/-- The body of the loop (l.659-804) -/
noncomputable def clusterStep (e : ModeNum n) (sy : Symm n) {k : ℕ} (m : Modes n r k) : Except LErr (Modes n r k) :=
  match trimStep e sy.ph (rotStep e (orthStep e m)) with
  | .error x => .error x
  | .ok m => chiralStep sy.chiral sy.tr m

/-- The loop (l.655-804) -/
noncomputable def runClusters (e : ModeNum n) (sy : Symm n) {N : ℕ} : List (List (Fin N)) → Modes n r N → Except LErr (Modes n r N)
  | [], m => .ok m
  | c :: cs, m =>
    match clusterStep e sy (m.take c.get) with
    | .error x => .error x
    | .ok o => runClusters e sy cs (m.put c.get o)

/-- The key by which the modes are sorted (l.816-817), from the most to the least important one. -/
noncomputable def sortKey {N : ℕ} (vel : Fin N → ℝ) (mom : Fin N → ℝ) (trim : Fin N → ℕ) (i : Fin N) : ℝ ×ₗ ℝ ×ₗ ℝ ×ₗ ℕ :=
  toLex (((SignType.sign (vel i) : SignType) : ℝ), toLex (-((SignType.sign (vel i) : SignType) : ℝ) * mom i, toLex (vel i, trim i)))

/-- What `make_proper_modes` returns: `psi`, and the attributes of `PropagatingModes`. -/
structure Proper (n r N : ℕ) where
  psi : Matrix (Fin r ⊕ Fin r) (Fin N) ℂ
  waveFunctions : Matrix (Fin n) (Fin N) ℂ
  velocities : Fin N → ℝ
  momenta : Fin N → ℝ

/-- The positions in one half of the modes with positive momentum (l.834, 851); `off` is the first position of this half. -/
noncomputable def positiveK (e : ModeNum n) {N : ℕ} (off : ℕ) (mom : Fin N → ℝ) : List (Fin N) :=
  open Classical in (List.finRange N).filter fun i => decide (off ≤ i.val ∧ i.val < off + N / 2 ∧ Real.pi - e.eps > mom i ∧ mom i > e.eps)

/-- The positions selected by `positive_k[::-1]` in the same half, in descending order: the mirror images of the positions selected by `positive_k`. -/
def mirror {N : ℕ} (off : ℕ) (hN : off + N / 2 ≤ N) (i : Fin N) : Fin N :=
  if h : off ≤ i.val ∧ i.val < off + N / 2 then ⟨off + (N / 2 - 1 - (i.val - off)), by omega⟩ else i

/-- The particle-hole partners in one half of the modes (l.833-846, 851-862).  The columns are taken in the order of `positive_k`, instead of the reverse of it,
which makes no difference. -/
noncomputable def phHalf (e : ModeNum n) (ph : Matrix (Fin n) (Fin n) ℂ) {N : ℕ} (off : ℕ) (hN : off + N / 2 ≤ N) (mom : Fin N → ℝ)
    (s : Matrix (Fin n) (Fin N) ℂ × Matrix (Fin r ⊕ Fin r) (Fin N) ℂ) : Matrix (Fin n) (Fin N) ℂ × Matrix (Fin r ⊕ Fin r) (Fin N) ℂ :=
  let pos := (positiveK e off mom).get
  let neg := mirror off hN ∘ pos
  let wfNegK := pdot ph (s.1.submatrix id pos)
  let rot := e.lstsq (s.1.submatrix id neg) wfNegK
  (updCols neg s.1 wfNegK, updCols neg s.2 (s.2.submatrix id neg * rot))

/-- The time-reversal partners (l.864-871) -/
noncomputable def trStep (e : ModeNum n) (tr : Matrix (Fin n) (Fin n) ℂ) {N : ℕ} (s : Matrix (Fin n) (Fin N) ℂ × Matrix (Fin r ⊕ Fin r) (Fin N) ℂ) :
    Matrix (Fin n) (Fin N) ℂ × Matrix (Fin r ⊕ Fin r) (Fin N) ℂ :=
  let out := pdot tr (s.1.submatrix id (firstHalf N))
  let rot := e.lstsq (s.1.submatrix id (secondHalf N)) out
  (updCols (secondHalf N) s.1 out, updCols (secondHalf N) s.2 (s.2.submatrix id (secondHalf N) * rot))

/-- The relations between modes by particle-hole and time-reversal symmetry, after sorting (l.831-871) -/
noncomputable def partners (e : ModeNum n) (sy : Symm n) {N : ℕ} (mom : Fin N → ℝ) (s : Matrix (Fin n) (Fin N) ℂ × Matrix (Fin r ⊕ Fin r) (Fin N) ℂ) :
    Matrix (Fin n) (Fin N) ℂ × Matrix (Fin r ⊕ Fin r) (Fin N) ℂ :=
  let s := match sy.ph with
    | none => s
    | some ph => phHalf e ph (N / 2) (by omega) mom (phHalf e ph 0 (by omega) mom s)
  match sy.tr with
  | none => s
  | some tr => trStep e tr s

open Classical in
/-- The checks after the loop (l.806-811) -/
noncomputable def velCheck (e : ModeNum n) {N : ℕ} (vel : Fin N → ℝ) : Bool :=
  decide ((∀ i, ¬|vel i| < e.velEps) ∧ 2 * (Finset.univ.filter fun i => vel i < 0).card = N)

/-- `make_proper_modes` (l.611-876); `junk` is the initial content of the array of velocities, which `np.empty` leaves uninitialised (l.626). -/
noncomputable def makeProperModes (e : ModeNum n) (sy : Symm n) {N : ℕ} (junk : Fin N → ℝ) (lmbdainv : Fin N → ℂ) (psi : Matrix (Fin r ⊕ Fin r) (Fin N) ℂ)
    (extract : Matrix (Fin r ⊕ Fin r) (Fin N) ℂ → (Fin N → ℂ) → Matrix (Fin n) (Fin N) ℂ) : Except LErr (Proper n r N) :=
  match runClusters e sy (clusters e lmbdainv) ⟨psi, extract psi lmbdainv, lmbdainv, junk, fun _ => 0⟩ with
  | .error x => .error x
  | .ok m =>
    if velCheck e m.vel then
      let mom : Fin N → ℝ := fun i => -(m.lam i).arg
      let order := Tuple.sort (sortKey m.vel mom m.trim)
      let vel := m.vel ∘ order
      let s := partners e sy (mom ∘ order) (m.full.submatrix id order, m.psi.submatrix id order)
      let norm : Fin N → ℂ := fun i => ((Real.sqrt |vel i| : ℝ) : ℂ)
      .ok { psi := of fun i j => s.2 i j / norm j, waveFunctions := of fun i j => s.1 i j / norm j, velocities := vel, momenta := mom ∘ order }
    else .error .runtimeError

end Kwant.Leads
