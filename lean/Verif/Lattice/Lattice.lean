import Verif.Linalg.Voronoi
import Verif.Lattice.Flood
import Verif.Symmetry.Props

/-!
C102, C103: kwant/lattice.py, the precalculated arrays of `Polyatomic` and `Monatomic` (l.120-123, l.452-454), `Monatomic.n_closest`, `closest`, `pos`
(l.477-503), and `Polyatomic.shape` for a lattice and a translational symmetry.

Simplifications: exact real arithmetic; the routines of numpy are arbitrary functions with contracts (`NumOk`); loops have a number of steps (`fuel`).
Vectors live in any real inner product space `E`, primitive vectors are a family `Fin D → E`, tags are `Fin D → ℤ`.
-/

set_option linter.unusedSectionVars false

namespace Kwant.Lat
open Kwant.LLL Kwant.Cvp Kwant.Voronoi

variable {E : Type*} [NormedAddCommGroup E] [InnerProductSpace ℝ E] {D : ℕ}

local notation "⟪" x ", " y "⟫" => inner ℝ x y

/-- Routines of numpy: `np.linalg.lstsq(a.T, b.T)`, `la.lstsq(basis.T, vec)`, `np.argsort` (of distances of lattice points). -/
structure Num (E : Type*) (D : ℕ) where
  lstsq : (Fin D → E) → (Fin D → E) → Matrix (Fin D) (Fin D) ℝ
  lsq : (Fin D → E) → E → Fin D → ℝ
  sort : (Fin D → E) → (E → ℝ) → List (Fin D → ℤ) → List (Fin D → ℤ)

/-- Their contracts. -/
structure NumOk (N : Num E D) : Prop where
  lstsq : LstsqOk N.lstsq
  lsq : LsqOk N.lsq
  sort : ∀ basis, SortOk basis (N.sort basis)

/-- The precalculated attributes `reduced_vecs`, `transf`, `voronoi`. -/
structure Aux (E : Type*) (D : ℕ) where
  reduced : Fin D → E
  transf : Matrix (Fin D) (Fin D) ℤ
  voronoi : List (Fin D → ℤ)

/-- `self.reduced_vecs, self.transf = lll.lll(prim_vecs)`; `self.voronoi = ta.dot(lll.voronoi(self.reduced_vecs), self.transf)` (l.122-123, l.453-454).
`ta.dot(v, transf)` for a row `v` is `v @ transf`. -/
noncomputable def initAux (N : Num E D) (prim : Fin D → E) (fuel fuel' : ℕ) : Option (Except LErr (Aux E D)) :=
  (lll N.lstsq prim 1.34 fuel).bind fun r =>
    match r with
    | .error e => some (.error e)
    | .ok (reduced, transf) =>
      (voronoi N.lsq (N.sort reduced) reduced false 1e-9 fuel').map fun vs => .ok ⟨reduced, transf, vs.map fun v => Matrix.vecMul v transf⟩

/-- `Monatomic.n_closest(pos, n, group_by_length, rtol)` (l.477-493): `np.dot(cvp(...), transf.T)`. -/
noncomputable def nClosest (N : Num E D) (aux : Aux E D) (offset pos : E) (n : ℕ) (group : Bool) (rtol : ℝ) (fuel : ℕ) : Option (List (Fin D → ℤ)) :=
  (cvp N.lsq (N.sort aux.reduced) (pos - offset) aux.reduced n group rtol fuel).map fun R => R.map fun z => aux.transf.mulVec z

/-- `Monatomic.closest(pos)` (l.495-499): the first of the closest ones; `n_closest(pos)[0]` of an empty array would raise `IndexError` (here: `none`). -/
noncomputable def closest (N : Num E D) (aux : Aux E D) (offset pos : E) (fuel : ℕ) : Option (Fin D → ℤ) :=
  (nClosest N aux offset pos 1 false 1e-9 fuel).bind List.head?

/-- `Monatomic.pos(tag)` (l.501-503): `ta.dot(tag, prim_vecs) + offset`. -/
noncomputable def tagPos (prim : Fin D → E) (offset : E) (tag : Fin D → ℤ) : E := latPt prim tag + offset

/-! ### Change of basis -/

/-- Coordinates in the reduced basis and tags. -/
structure AuxOk (prim : Fin D → E) (aux : Aux E D) : Prop where
  unit : aux.transf.det = 1 ∨ aux.transf.det = -1
  cols : ∀ k, aux.reduced k = ∑ j, aux.transf j k • prim j
  li : LinearIndependent ℝ aux.reduced
  red : CReduced 1.34 aux.reduced

theorem latPt_mulVec {prim : Fin D → E} {aux : Aux E D} (h : AuxOk prim aux) (z : Fin D → ℤ) : latPt prim (aux.transf.mulVec z) = latPt aux.reduced z := by
  unfold latPt
  simp only [h.cols, Finset.smul_sum]
  rw [Finset.sum_comm]
  refine Finset.sum_congr rfl fun j _ => ?_
  rw [Matrix.mulVec, dotProduct]
  push_cast
  rw [Finset.sum_smul]
  refine Finset.sum_congr rfl fun k _ => ?_
  rw [← Int.cast_smul_eq_zsmul ℝ, smul_smul, mul_comm]

theorem AuxOk.isUnit {prim : Fin D → E} {aux : Aux E D} (h : AuxOk prim aux) : IsUnit aux.transf.det := by
  rcases h.unit with h | h <;> rw [h]
  · exact isUnit_one
  · exact isUnit_one.neg

theorem mulVec_surj {prim : Fin D → E} {aux : Aux E D} (h : AuxOk prim aux) (t : Fin D → ℤ) : ∃ z, aux.transf.mulVec z = t :=
  ⟨(aux.transf⁻¹).mulVec t, by rw [Matrix.mulVec_mulVec, Matrix.mul_nonsing_inv _ h.isUnit, Matrix.one_mulVec]⟩

theorem mulVec_inj {prim : Fin D → E} {aux : Aux E D} (h : AuxOk prim aux) {y z : Fin D → ℤ} (e : aux.transf.mulVec y = aux.transf.mulVec z) : y = z := by
  have := congrArg (aux.transf⁻¹).mulVec e
  rwa [Matrix.mulVec_mulVec, Matrix.mulVec_mulVec, Matrix.nonsing_inv_mul _ h.isUnit, Matrix.one_mulVec, Matrix.one_mulVec] at this

theorem vecMul_surj {prim : Fin D → E} {aux : Aux E D} (h : AuxOk prim aux) (t : Fin D → ℤ) : ∃ z, Matrix.vecMul z aux.transf = t :=
  ⟨Matrix.vecMul t (aux.transf⁻¹), by rw [Matrix.vecMul_vecMul, Matrix.nonsing_inv_mul _ h.isUnit, Matrix.vecMul_one]⟩

/-- What the constructor computes. -/
theorem init_ok {N : Num E D} (hN : NumOk N) {prim : Fin D → E} (hb : LinearIndependent ℝ prim) {fuel fuel' : ℕ} {r : Except LErr (Aux E D)}
    (h : initAux N prim fuel fuel' = some r) :
    ∃ aux vs, r = .ok aux ∧ AuxOk prim aux ∧ voronoi N.lsq (N.sort aux.reduced) aux.reduced false 1e-9 fuel' = some vs ∧
      aux.voronoi = vs.map (fun v => Matrix.vecMul v aux.transf) ∧ lll N.lstsq prim 1.34 fuel = some (.ok (aux.reduced, aux.transf)) := by
  unfold initAux at h
  obtain ⟨q, hq, h⟩ := Option.bind_eq_some_iff.mp h
  obtain ⟨v, coefs, rfl, -, h1, h2, h3, h4⟩ := C70_lll hN.lstsq hb hq
  obtain ⟨vs, hv, rfl⟩ := Option.map_eq_some_iff.mp h
  exact ⟨_, vs, rfl, ⟨h1, h2, h3, h4⟩, hv, rfl, hq⟩

/-- **C103**: the constructor ends and raises no `RuntimeError`, for all linearly independent primitive vectors. -/
theorem C103_init {N : Num E D} (hN : NumOk N) {prim : Fin D → E} (hb : LinearIndependent ℝ prim) :
    ∃ fuel fuel' aux, initAux N prim fuel fuel' = some (.ok aux) ∧ AuxOk prim aux := by
  obtain ⟨fuel, r, h⟩ := C70_terminates N.lstsq hb (c := 1.34) (by norm_num)
  obtain ⟨v, coefs, rfl, -, h1, h2, h3, h4⟩ := C70_lll hN.lstsq hb h
  obtain ⟨fuel', vs, hv⟩ := C72_terminates hN.lsq (hN.sort v) h3 false 1e-9
  refine ⟨fuel, fuel', ⟨v, coefs, vs.map fun w => Matrix.vecMul w coefs⟩, ?_, ⟨h1, h2, h3, h4⟩⟩
  unfold initAux
  rw [h]
  show Option.map _ (voronoi N.lsq (N.sort v) v false 1e-9 fuel') = _
  rw [hv]
  rfl

theorem tagPos_mulVec {prim : Fin D → E} {aux : Aux E D} (h : AuxOk prim aux) (offset pos : E) (z : Fin D → ℤ) :
    ‖tagPos prim offset (aux.transf.mulVec z) - pos‖ = ‖latPt aux.reduced z - (pos - offset)‖ := by
  unfold tagPos
  rw [latPt_mulVec h]
  congr 1
  abel

/-- **C103**: `n_closest(pos, n)` returns the tags of `n` different sites in the order of their distance from `pos`, and no other site of the family is closer
to `pos` than any of them. -/
theorem C103_nClosest {N : Num E D} (hN : NumOk N) {prim : Fin D → E} {aux : Aux E D} (h : AuxOk prim aux) (offset pos : E) {n : ℕ} (hn : 1 ≤ n) {rtol : ℝ}
    {fuel : ℕ} {R : List (Fin D → ℤ)} (hR : nClosest N aux offset pos n false rtol fuel = some R) :
    R.length = n ∧ R.Nodup ∧ R.Pairwise (fun a b => ‖tagPos prim offset a - pos‖ ≤ ‖tagPos prim offset b - pos‖) ∧
      ∀ t, t ∉ R → ∀ r ∈ R, ‖tagPos prim offset r - pos‖ ≤ ‖tagPos prim offset t - pos‖ := by
  obtain ⟨Q, hQ, rfl⟩ := Option.map_eq_some_iff.mp hR
  obtain ⟨h1, h2, h3, h4⟩ := C71_closest hN.lsq (hN.sort _) h.li hn hQ
  refine ⟨by rw [List.length_map, h1], h2.map fun y z e => mulVec_inj h e, ?_, ?_⟩
  · rw [List.pairwise_map]
    exact h3.imp fun {a b} hab => by rw [tagPos_mulVec h, tagPos_mulVec h]; exact hab
  · intro t ht r hr
    obtain ⟨z, rfl⟩ := mulVec_surj h t
    obtain ⟨y, hy, rfl⟩ := List.mem_map.mp hr
    rw [tagPos_mulVec h, tagPos_mulVec h]
    exact h4 z (fun hz => ht (List.mem_map.mpr ⟨z, hz, rfl⟩)) y hy

/-- **C103**: `closest(pos)` is the tag of a site closest to `pos`. -/
theorem C103_closest {N : Num E D} (hN : NumOk N) {prim : Fin D → E} {aux : Aux E D} (h : AuxOk prim aux) (offset pos : E) {fuel : ℕ} {r : Fin D → ℤ}
    (hr : closest N aux offset pos fuel = some r) (t : Fin D → ℤ) : ‖tagPos prim offset r - pos‖ ≤ ‖tagPos prim offset t - pos‖ := by
  obtain ⟨R, hR, hh⟩ := Option.bind_eq_some_iff.mp hr
  obtain ⟨h1, -, -, h4⟩ := C103_nClosest hN h offset pos le_rfl hR
  obtain ⟨c, rfl⟩ := List.length_eq_one_iff.mp h1
  obtain rfl : c = r := Option.some.inj hh
  by_cases e : t = c
  · rw [e]
  · exact h4 t (by simpa using e) c (by simp)

/-- **C103**: `n_closest` and `closest` end. -/
theorem C103_terminates {N : Num E D} (hN : NumOk N) {prim : Fin D → E} {aux : Aux E D} (h : AuxOk prim aux) (hD : 1 ≤ D) (offset pos : E) {n : ℕ} (hn : 1 ≤ n)
    (rtol : ℝ) : (∃ fuel R, nClosest N aux offset pos n false rtol fuel = some R) ∧ ∃ fuel r, closest N aux offset pos fuel = some r := by
  constructor
  · obtain ⟨fuel, R, hR⟩ := C71_terminates (lsq := N.lsq) (hN.sort _) h.li hD (pos - offset) hn rtol
    exact ⟨fuel, _, by unfold nClosest; rw [hR]; rfl⟩
  · obtain ⟨fuel, R, hR⟩ := C71_terminates (lsq := N.lsq) (hN.sort _) h.li hD (pos - offset) le_rfl 1e-9
    have hl := (C71_closest hN.lsq (hN.sort _) h.li le_rfl hR).1
    obtain ⟨c, rfl⟩ := List.length_eq_one_iff.mp hl
    exact ⟨fuel, aux.transf.mulVec c, by unfold closest nClosest; rw [hR]; rfl⟩

/-- **C103**: two sites of a family have different positions. -/
theorem C103_pos_injective {prim : Fin D → E} (hb : LinearIndependent ℝ prim) (offset : E) : Function.Injective (tagPos prim offset) := fun s t e =>
  latPt_inj hb (add_right_cancel e)

/-- **C103**: `closest(pos(tag)) == tag`. -/
theorem C103_roundtrip {N : Num E D} (hN : NumOk N) {prim : Fin D → E} (hb : LinearIndependent ℝ prim) {aux : Aux E D} (h : AuxOk prim aux) (offset : E)
    (t : Fin D → ℤ) {fuel : ℕ} {r : Fin D → ℤ} (hr : closest N aux offset (tagPos prim offset t) fuel = some r) : r = t := by
  have := C103_closest hN h offset _ hr t
  rw [sub_self, norm_zero] at this
  exact C103_pos_injective hb offset (sub_eq_zero.mp (norm_le_zero_iff.mp this))

/-! ### Shapes -/

/-- A polyatomic lattice: the primitive vectors, the sublattices and their offsets. -/
structure Poly (E : Type*) (D : ℕ) (L : Type*) where
  prim : Fin D → E
  lats : List L
  offset : L → E

variable {L : Type*} [DecidableEq L]

/-- `symmetry.to_fd(Site(lat, tag, True)).tag` for a translational symmetry with the data `d` for the family (builder.py l.291-300 with lattice.py
l.688-706). -/
def fdTag {k : ℕ} (d : FamData k) (rev : Bool) (tag : Fin d.dim → ℤ) : Fin d.dim → ℤ :=
  let t : TransSym Unit := ⟨k, fun _ => d, rev⟩
  (t.toSymmetry.toFd (⟨(), tag⟩ : LSite t)).tag

theorem fdTag_act {k : ℕ} (d : FamData k) (rev : Bool) (g : Fin k → ℤ) (tag : Fin d.dim → ℤ) : fdTag d rev (tag + d.mPart.mulVec g) = fdTag d rev tag := by
  let t : TransSym Unit := ⟨k, fun _ => d, rev⟩
  have e : (⟨(), tag + d.mPart.mulVec g⟩ : LSite t) = t.toSymmetry.act (if rev then -g else g) (⟨(), tag⟩ : LSite t) := by
    cases rev
    · rfl
    · show _ = t.act (-g) (⟨(), tag⟩ : LSite t)
      unfold TransSym.act
      show (⟨(), tag + d.mPart.mulVec g⟩ : LSite t) = ⟨(), tag + -(d.mPart.mulVec (-g))⟩
      rw [Matrix.mulVec_neg, neg_neg]
  unfold fdTag
  show (t.toSymmetry.toFd (⟨(), tag + d.mPart.mulVec g⟩ : LSite t)).tag = _
  rw [e, (t.C10_lawful).toFd_act]

theorem fdTag_diff {k : ℕ} (d : FamData k) (rev : Bool) (tag : Fin d.dim → ℤ) : ∃ g, fdTag d rev tag = tag + d.mPart.mulVec g := by
  let t : TransSym Unit := ⟨k, fun _ => d, rev⟩
  refine ⟨if rev then t.which (⟨(), tag⟩ : LSite t) else -t.which (⟨(), tag⟩ : LSite t), ?_⟩
  cases rev
  · rfl
  · show tag + -(d.mPart.mulVec (-t.which (⟨(), tag⟩ : LSite t))) = _
    rw [Matrix.mulVec_neg, neg_neg]
    rfl

/-- Translating into the fundamental domain satisfies the contract of the flood fill. -/
theorem fdTag_coset {k : ℕ} (d : FamData k) (rev : Bool) (t v : Fin d.dim → ℤ) : fdTag d rev (fdTag d rev t + v) = fdTag d rev (t + v) := by
  obtain ⟨g, hg⟩ := fdTag_diff d rev t
  rw [hg, add_right_comm, fdTag_act]

/-- All the start tags: `set(lat.closest(start) for lat in lats)` (l.187). -/
noncomputable def startTags (N : Num E D) (aux : Aux E D) (P : Poly E D L) (start : E) (fuel : ℕ) : Option (Finset (Fin D → ℤ)) :=
  (mapAll (fun lat => closest N aux (P.offset lat) start fuel) P.lats).map List.toFinset

/-- The input of the flood fill for the shape `f` of a lattice (l.171-185), with the function `fd` of the symmetry. -/
noncomputable def shapeInp (P : Poly E D L) (aux : Aux E D) (fd : L → (Fin D → ℤ) → Fin D → ℤ) (f : E → Bool) (starts : Finset (Fin D → ℤ))
    (ordT : Finset (Fin D → ℤ) → List (Fin D → ℤ)) (ordS : Finset (L × (Fin D → ℤ)) → List (L × (Fin D → ℤ))) : Shape.Inp (Fin D → ℤ) L where
  lats := P.lats
  deltas := aux.voronoi
  fd := fd
  inside := fun lat tag => f (tagPos P.prim (P.offset lat) tag)
  starts := starts
  ordT := ordT
  ordS := ordS

theorem aux_neg {N : Num E D} (hN : NumOk N) {prim : Fin D → E} (hb : LinearIndependent ℝ prim) {fuel fuel' : ℕ} {aux : Aux E D}
    (h : initAux N prim fuel fuel' = some (.ok aux)) {d : Fin D → ℤ} (hd : d ∈ aux.voronoi) : -d ∈ aux.voronoi := by
  obtain ⟨aux', vs, he, ha, hv, hvv, -⟩ := init_ok hN hb h
  obtain rfl : aux = aux' := by injection he
  obtain ⟨-, ⟨V, rfl, -⟩, -⟩ := C72_voronoi hN.lsq (hN.sort _) ha.li hv
  rw [hvv] at hd ⊢
  obtain ⟨v, hvm, rfl⟩ := List.mem_map.mp hd
  refine List.mem_map.mpr ⟨-v, ?_, Matrix.neg_vecMul _ _⟩
  rcases List.mem_append.mp hvm with h1 | h1
  · exact List.mem_append_right _ (List.mem_map.mpr ⟨v, h1, rfl⟩)
  · obtain ⟨w, hw, rfl⟩ := List.mem_map.mp h1
    rw [neg_neg]
    exact List.mem_append_left _ hw

theorem mapAll_mem {α β : Type*} {f : α → Option β} {l : List α} {r : List β} (h : mapAll f l = some r) (b : β) : b ∈ r ↔ ∃ a ∈ l, f a = some b := by
  have hf := mapAll_some h
  constructor
  · intro hb
    obtain ⟨i, hi, rfl⟩ := List.getElem_of_mem hb
    have hl := hf.length_eq
    exact ⟨l[i]'(by omega), List.getElem_mem _, List.forall₂_iff_get.mp hf |>.2 i (by omega) hi⟩
  · rintro ⟨a, ha, he⟩
    obtain ⟨i, hi, rfl⟩ := List.getElem_of_mem ha
    have hl := hf.length_eq
    have := List.forall₂_iff_get.mp hf |>.2 i hi (by omega)
    simp only [List.get_eq_getElem] at this
    rw [this] at he
    rw [← Option.some.inj he]
    exact List.getElem_mem _

end Kwant.Lat
