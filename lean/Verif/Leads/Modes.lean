import Verif.Leads.BlockError
import Mathlib.Algebra.BigOperators.Fin
import Mathlib.Data.Matrix.Block

/-!
Model of kwant/physics/leads.py, `transform_modes` (l.912-984), `modes` (l.986-1160), with `nonzero_symm_projection` (l.51-70) and `group_halves` (l.73-82).

Simplifications: exact arithmetic (`np.allclose` is equality); sparse and dense matrices are not distinguished; the argument `discrete_symmetry` is only a way to pass
the four others; the numerical routines are functions with contracts, see `Block.lean`.  The columns of the arrays of propagating modes are indexed by a sum of two
types, for the two halves of the array.
-/

set_option linter.unusedSectionVars false

namespace Kwant.Leads
open Matrix Complex

variable {n : ℕ}

/-- The tuple that `compute_block_modes` returns, with the two halves of the propagating modes told apart. -/
structure BM (n : ℕ) where
  r : ℕ
  p : ℕ
  q : ℕ
  wf : Matrix (Fin n) (Fin p ⊕ Fin p) ℂ
  mom : Fin p ⊕ Fin p → ℝ
  vel : Fin p ⊕ Fin p → ℝ
  vecs : Matrix (Fin r) ((Fin p ⊕ Fin p) ⊕ Fin q) ℂ
  vecsl : Matrix (Fin r) ((Fin p ⊕ Fin p) ⊕ Fin q) ℂ
  v : Matrix (Fin n) (Fin r) ℂ

/-- The two halves of an array of even length. -/
def halfIdx {N p : ℕ} (h : N = p + p) : Fin p ⊕ Fin p ≃ Fin N := finSumFinEquiv.trans (finCongr h.symm)

/-- `nmodes = wave_functions.shape[1] // 2`, `np.split(arr, 2)` (l.80, 934, 1144-1150).  `np.split` raises `ValueError` for an array of odd length. -/
def halves (m : BlockModes n) : Except LErr (BM n) :=
  if h : m.N = m.N / 2 + m.N / 2 then .ok
    { r := m.r, p := m.N / 2, q := m.q, wf := m.waveFunctions.submatrix id (halfIdx h), mom := m.momenta ∘ halfIdx h, vel := m.velocities ∘ halfIdx h,
      vecs := m.vecs.submatrix id (Sum.map (halfIdx h) id), vecsl := m.vecslmbdainv.submatrix id (Sum.map (halfIdx h) id), v := m.v }
  else .error .valueError

/-- The relation between two blocks that is given to `transform_modes`. -/
inductive Rel | unitary | tr | ph | chiral
  deriving DecidableEq

/-- `conj` (l.938-955) -/
def Rel.conj : Rel → Bool
  | .unitary => false
  | .tr => true
  | .ph => true
  | .chiral => false

/-- `flip_energy` (l.938-955) -/
def Rel.flip : Rel → Bool
  | .unitary => false
  | .tr => false
  | .ph => true
  | .chiral => true

/-- The array `perm` (l.937-955); `p` is `nmodes`. -/
def Rel.permN : Rel → ℕ → ℕ → ℕ
  | .unitary, _, i => i
  | .tr, p, i => 2 * p - 1 - i
  | .ph, p, i => ((-1 - (i : ℤ)) % p + p * (i / p : ℕ)).toNat
  | .chiral, p, i => i % p + p * (if i < p then 1 else 0)

theorem Rel.permN_lt (k : Rel) {p i : ℕ} (hi : i < p + p) : k.permN p i < p + p := by
  have hp : 0 < p := by omega
  cases k with
  | unitary => exact hi
  | tr => simp only [permN]; omega
  | ph =>
    simp only [permN]
    have h1 : ((-1 - (i : ℤ)) % p) < p := Int.emod_lt_of_pos _ (by omega)
    have h2 : 0 ≤ (-1 - (i : ℤ)) % p := Int.emod_nonneg _ (by omega)
    have h3 : i / p < 2 := by rw [Nat.div_lt_iff_lt_mul hp]; omega
    have h4 : p * (i / p) ≤ p * 1 := Nat.mul_le_mul le_rfl (by omega)
    have h5 : ((p * (i / p : ℕ) : ℤ)) = ((p * (i / p) : ℕ) : ℤ) := by push_cast; rfl
    rw [h5]
    omega
  | chiral =>
    simp only [permN]
    have := Nat.mod_lt i hp
    split <;> simp <;> omega

/-- `perm`, for the two halves. -/
def Rel.perm (k : Rel) {p : ℕ} (x : Fin p ⊕ Fin p) : Fin p ⊕ Fin p :=
  finSumFinEquiv.symm ⟨k.permN p (finSumFinEquiv x), k.permN_lt (finSumFinEquiv x).2⟩

/-- Complex conjugation, if `c`. -/
noncomputable def cj (c : Bool) : ℂ →+* ℂ := if c then starRingEnd ℂ else RingHom.id ℂ

/-- `transform_modes` (l.912-984) -/
noncomputable def transformModes {n' : ℕ} (k : Rel) (U : Matrix (Fin n') (Fin n) ℂ) (m : BM n) : BM n' where
  r := m.r
  p := m.p
  q := m.q
  wf := (U * m.wf.map (cj k.conj)).submatrix id k.perm
  mom := fun x => (if k.conj then -1 else 1) * m.mom (k.perm x)
  vel := fun x => (if k.flip ≠ k.conj then -1 else 1) * m.vel (k.perm x)
  vecs := (m.vecs.map (cj k.conj)).submatrix id (Sum.map k.perm id)
  vecsl := ((if k.flip then -1 else 1 : ℂ) • m.vecsl.map (cj k.conj)).submatrix id (Sum.map k.perm id)
  v := U * m.v.map (cj k.conj)

/-- `projectors`, with the numbers of their columns. -/
structure Projectors (n : ℕ) where
  nb : ℕ
  dim : Fin nb → ℕ
  proj : (b : Fin nb) → Matrix (Fin n) (Fin (dim b)) ℂ

/-- `[sp_identity(ham.shape[0])]` (l.1076-1077) -/
def Projectors.default (n : ℕ) : Projectors n := ⟨1, fun _ => n, fun _ => 1⟩

/-- The block `x`, `y` of `basis_change(a)` (l.1094-1096) -/
def Projectors.blk (P : Projectors n) (a : Matrix (Fin n) (Fin n) ℂ) (x y : Fin P.nb) : Matrix (Fin (P.dim x)) (Fin (P.dim y)) ℂ := (P.proj x)ᴴ * a * P.proj y

/-- The block `x`, `y` of `basis_change(a, True)` (l.1094-1096) -/
noncomputable def Projectors.ablk (P : Projectors n) (a : Matrix (Fin n) (Fin n) ℂ) (x y : Fin P.nb) : Matrix (Fin (P.dim x)) (Fin (P.dim y)) ℂ :=
  (P.proj x)ᴴ * a * (P.proj y).map (starRingEnd ℂ)

open Classical in
/-- `symm if nonzero_symm_projection(symm) else None` (l.51-70, 1113-1114) -/
noncomputable def nonzeroSymm {a b : ℕ} (m : Matrix (Fin a) (Fin b) ℂ) : Option (Matrix (Fin a) (Fin b) ℂ) :=
  if Real.sqrt (∑ i, ∑ j, ‖m i j‖ ^ 2) > 1 / 2 then some m else none

/-- The symmetries from block `x` to block `y` (l.1111-1114): an absent symmetry is represented by a zero matrix, which `nonzero_symm_projection` rejects. -/
noncomputable def symTr (P : Projectors n) (sy : Symm n) (y x : Fin P.nb) : Option (Matrix (Fin (P.dim y)) (Fin (P.dim x)) ℂ) := nonzeroSymm (P.ablk (sy.tr.getD 0) y x)

noncomputable def symPh (P : Projectors n) (sy : Symm n) (y x : Fin P.nb) : Option (Matrix (Fin (P.dim y)) (Fin (P.dim x)) ℂ) := nonzeroSymm (P.ablk (sy.ph.getD 0) y x)

noncomputable def symChiral (P : Projectors n) (sy : Symm n) (y x : Fin P.nb) : Option (Matrix (Fin (P.dim y)) (Fin (P.dim x)) ℂ) :=
  nonzeroSymm (P.blk (sy.chiral.getD 0) y x)

/-- The identity, as a relation between blocks of the same size (l.1132). -/
def idMat (a b : ℕ) : Matrix (Fin a) (Fin b) ℂ := of fun i j => if i.val = j.val then 1 else 0

/-- The diagonal blocks of `a` are the same (l.1130-1131). -/
def SameBlock (P : Projectors n) (a : Matrix (Fin n) (Fin n) ℂ) (x y : Fin P.nb) : Prop :=
  ∃ h : P.dim x = P.dim y, ∀ i j, P.blk a x x i j = P.blk a y y (i.cast h) (j.cast h)

open Classical in
/-- The relation that `transform_modes` uses (l.1130-1137 and l.936-957): the first one that is there. -/
noncomputable def relation (P : Projectors n) (sy : Symm n) (h hop : Matrix (Fin n) (Fin n) ℂ) (i j : Fin P.nb) :
    Option (Rel × Matrix (Fin (P.dim j)) (Fin (P.dim i)) ℂ) :=
  if SameBlock P h i j ∧ SameBlock P hop i j then some (.unitary, idMat _ _)
  else match symTr P sy j i with
    | some U => some (.tr, U)
    | none => match symPh P sy j i with
      | some U => some (.ph, U)
      | none => match symChiral P sy j i with
        | some U => some (.chiral, U)
        | none => none

/-- `block_modes` -/
abbrev BState (P : Projectors n) := (b : Fin P.nb) → Option (BM (P.dim b))

def BState.set {P : Projectors n} (st : BState P) (b : Fin P.nb) (m : BM (P.dim b)) : BState P := Function.update st b (some m)

/-- The numerical routines, for every size of the blocks, the initial content of uninitialised arrays, and the argument `stabilization`. -/
structure ModesNum where
  num : (d : ℕ) → BlockNum d
  junk : ℕ → (N : ℕ) → Fin N → ℝ
  stab : Option (Option Bool × Bool)

/-- The body of the loop (l.1108-1137).  Unpacking `None` in `transform_modes` would raise a `TypeError`, this does not happen. -/
noncomputable def modesStep (e : ModesNum) (P : Projectors n) (sy : Symm n) (h hop : Matrix (Fin n) (Fin n) ℂ) (st : BState P) (i j : Fin P.nb) : Except LErr (BState P) :=
  if i = j then
    match st i with
    | some _ => .ok st
    | none =>
      match computeBlockModes (e.num (P.dim i)) ⟨symTr P sy i i, symPh P sy i i, symChiral P sy i i⟩ (e.junk i) (P.blk h i i) (P.blk hop i i) e.stab with
      | .error x => .error x
      | .ok m => match halves m with
        | .error x => .error x
        | .ok m => .ok (st.set i m)
  else
    match st j with
    | some _ => .ok st
    | none =>
      if P.dim i ≠ P.dim j then .ok st
      else match relation P sy h hop i j with
        | none => .ok st
        | some (k, U) => match st i with
          | none => .error .assertionError
          | some m => .ok (st.set j (transformModes k U m))

/-- `combinations_with_replacement(range(nb), 2)` (l.1107) -/
def pairs (nb : ℕ) : List (Fin nb × Fin nb) := (List.finRange nb).flatMap fun i => ((List.finRange nb).filter fun j => i ≤ j).map fun j => (i, j)

/-- The loop (l.1108-1137) -/
noncomputable def runModes (e : ModesNum) (P : Projectors n) (sy : Symm n) (h hop : Matrix (Fin n) (Fin n) ℂ) : List (Fin P.nb × Fin P.nb) → BState P → Except LErr (BState P)
  | [], st => .ok st
  | (i, j) :: l, st => match modesStep e P sy h hop st i j with
    | .error x => .error x
    | .ok st => runModes e P sy h hop l st

/-- One of the parts of the arrays, for all blocks: `block_diag(*part)` (l.1152-1158) -/
def blockDiag {nb : ℕ} {r c : Fin nb → ℕ} (part : (b : Fin nb) → Matrix (Fin (r b)) (Fin (c b)) ℂ) : Matrix (Fin (∑ b, r b)) (Fin (∑ b, c b)) ℂ :=
  (blockDiagonal' part).submatrix finSigmaFinEquiv.symm finSigmaFinEquiv.symm

/-- `np.hstack([block_diag(*part) for part in parts])` (l.1152-1158) -/
def joinBlocks {nb : ℕ} {r p q : Fin nb → ℕ} (v : (b : Fin nb) → Matrix (Fin (r b)) ((Fin (p b) ⊕ Fin (p b)) ⊕ Fin (q b)) ℂ) :
    Matrix (Fin (∑ b, r b)) ((Fin (∑ b, p b) ⊕ Fin (∑ b, p b)) ⊕ Fin (∑ b, q b)) ℂ :=
  fromCols (fromCols (blockDiag fun b => (v b).submatrix id (Sum.inl ∘ Sum.inl)) (blockDiag fun b => (v b).submatrix id (Sum.inl ∘ Sum.inr)))
    (blockDiag fun b => (v b).submatrix id Sum.inr)

/-- `group_halves` (l.73-82): `[a b], [c d], [e f] -> [a c e b d f]` -/
def groupHalves {nb : ℕ} {p : Fin nb → ℕ} {α : Type} (arr : (b : Fin nb) → Fin (p b) ⊕ Fin (p b) → α) : Fin (∑ b, p b) ⊕ Fin (∑ b, p b) → α :=
  Sum.elim (fun i => let c := finSigmaFinEquiv.symm i; arr c.1 (.inl c.2)) (fun i => let c := finSigmaFinEquiv.symm i; arr c.1 (.inr c.2))

/-- The arrays of all blocks, joined (l.1138-1160); `v` is not yet cut to the size of the interface. -/
def joinModes (P : Projectors n) (m : (b : Fin P.nb) → BM (P.dim b)) : BM n where
  r := ∑ b, (m b).r
  p := ∑ b, (m b).p
  q := ∑ b, (m b).q
  wf := (of (groupHalves fun b => (P.proj b * (m b).wf)ᵀ))ᵀ
  mom := groupHalves fun b => (m b).mom
  vel := groupHalves fun b => (m b).vel
  vecs := joinBlocks fun b => (m b).vecs
  vecsl := joinBlocks fun b => (m b).vecsl
  v := of fun x i => let c := finSigmaFinEquiv.symm i; (P.proj c.1 * (m c.1).v) x c.2

/-- The modes of the lead: `PropagatingModes` and `StabilizedModes`; the attribute `block_nmodes` is not set if there is no hopping. -/
structure LeadModes (n m : ℕ) where
  r : ℕ
  p : ℕ
  q : ℕ
  wf : Matrix (Fin n) (Fin p ⊕ Fin p) ℂ
  mom : Fin p ⊕ Fin p → ℝ
  vel : Fin p ⊕ Fin p → ℝ
  blockNmodes : Option (List ℕ)
  stab : StabModes m r p q

/-- The square hopping matrix (l.1068-1073) -/
def padHop {m : ℕ} (hop : Matrix (Fin n) (Fin m) ℂ) : Matrix (Fin n) (Fin n) ℂ := of fun i j => if h : j.val < m then hop i ⟨j.val, h⟩ else 0

/-- The result if the hopping is zero (l.1059-1064) -/
def emptyModes (n m : ℕ) : LeadModes n m where
  r := 0
  p := 0
  q := 0
  wf := of fun _ i => Sum.elim Fin.elim0 Fin.elim0 i
  mom := Sum.elim Fin.elim0 Fin.elim0
  vel := Sum.elim Fin.elim0 Fin.elim0
  blockNmodes := none
  stab := ⟨of fun i => Fin.elim0 i, of fun i => Fin.elim0 i, of fun _ i => Fin.elim0 i⟩

/-- What is returned (l.1138-1160), with `sqrt_hops` cut to the orbitals of the interface. -/
def leadOf {m : ℕ} (hm : m ≤ n) (nm : List ℕ) (M : BM n) : LeadModes n m where
  r := M.r
  p := M.p
  q := M.q
  wf := M.wf
  mom := M.mom
  vel := M.vel
  blockNmodes := some nm
  stab := ⟨M.vecs, M.vecsl, M.v.submatrix (Fin.castLE hm) id⟩

open Classical in
/-- `modes` (l.986-1160).  The hopping has at most as many columns as there are orbitals in the cell, otherwise the assignment in l.1072 fails. -/
noncomputable def modes (e : ModesNum) (projectors : Option (Projectors n)) (sy : Symm n) (h : Matrix (Fin n) (Fin n) ℂ) {m : ℕ} (hhop : Matrix (Fin n) (Fin m) ℂ) :
    Except LErr (LeadModes n m) :=
  if hhop = 0 then .ok (emptyModes n m)
  else if hm : m ≤ n then
    let P := projectors.getD (Projectors.default n)
    match runModes e P sy h (padHop hhop) (pairs P.nb) (fun _ => none) with
    | .error x => .error x
    | .ok st =>
      if hs : ∀ b, (st b).isSome then
        let bm := fun b => (st b).get (hs b)
        .ok (leadOf hm ((List.finRange P.nb).map fun b => (bm b).p) (joinModes P bm))
      else .error .assertionError
  else .error .valueError

/-- `selfenergy` (l.1163-1191) -/
noncomputable def leadSelfenergy (e : ModesNum) (h : Matrix (Fin n) (Fin n) ℂ) {m : ℕ} (hhop : Matrix (Fin n) (Fin m) ℂ)
    (solve : {r p q : ℕ} → Solve (Fin r) (Fin p ⊕ Fin q) (Fin m)) : Except LErr (Matrix (Fin m) (Fin m) ℂ) :=
  match modes e none ⟨none, none, none⟩ h hhop with
  | .error x => .error x
  | .ok M => .ok (selfenergy solve M.stab)

end Kwant.Leads
