import Verif.Lattice.Lattice

/-!
C186: kwant/builder.py, `Builder.closest` (l.1297-1349).

Simplifications: exact real arithmetic; positions live in any real inner product space; the routines of numpy by contracts, loops with a number of steps (as in C70,
C71).  Sites belong to lattice families, or to families without positions.
-/

set_option linter.unusedSectionVars false

namespace Kwant.ClosestSite
open Kwant.LLL Kwant.Cvp Kwant.Lat

variable {E : Type*} [NormedAddCommGroup E] [InnerProductSpace ℝ E] {F : Type}

local notation "⟪" x ", " y "⟫" => inner ℝ x y

/-- The geometry of a lattice family: `prim_vecs` and `offset`. -/
structure Geom (E : Type*) (D : ℕ) where
  prim : Fin D → E
  offset : E

/-- Exceptions: `StopIteration` (l.1318), `AttributeError` (l.1319, l.1331), `RuntimeError` of `lll`. -/
inductive Err where
  | stop | noPos | lll (e : LErr)
  deriving DecidableEq

variable (t : TransSym F) (geom : ∀ f : F, Option (Geom E (t.fam f).dim))

/-- `site.pos`: an `AttributeError` if the family has no `pos` (builder.py l.150-153). -/
noncomputable def sitePos (s : LSite t) : Except Err E :=
  match geom s.family with
  | none => .error .noPos
  | some g => .ok (tagPos g.prim g.offset s.tag)

/-- `I = ta.identity(n, int)`: a row (l.1317) -/
def unit (j : Fin t.k) : Fin t.k → ℤ := fun i => if i = j then 1 else 0

/-- `space_basis` (l.1319-1320); all elements have positions if the first site has. -/
noncomputable def spaceBasis (s : LSite t) : Except Err (Fin t.k → E) :=
  match geom s.family with
  | none => .error .noPos
  | some g => .ok fun j => tagPos g.prim g.offset (t.act (unit t j) s).tag - tagPos g.prim g.offset s.tag

/-- `tag_basis` before and after the transformation (l.1336-1339), with `transf = coefs.T` (l.1322). -/
def tagBasis (coefs : Matrix (Fin t.k) (Fin t.k) ℤ) (f : F) (k : Fin t.k) : Fin (t.fam f).dim → ℤ :=
  ∑ j, coefs.transpose k j • (t.act (unit t j) (⟨f, 0⟩ : LSite t)).tag

/-- The loop over the sites (l.1325-1348) with the image of the site (l.1333-1342) given by `image`; the state `best` is `dist` of the code (`none`: infinity) and `result`. -/
noncomputable def scan (pos : E) (image : LSite t → E → Option (LSite t)) : List (LSite t) → Option ℝ → Option (LSite t) → Option (Except Err (Option (LSite t)))
  | [], _, result => some (.ok result)
  | s :: rest, best, result =>
    match sitePos t geom s with
    | .error e => some (.error e)
    | .ok p =>
      match image s p with
      | none => none
      | some s' =>
        match sitePos t geom s' with
        | .error e => some (.error e)
        | .ok p' =>
          open Classical in
          if (∀ x, best = some x → ⟪p' - pos, p' - pos⟫ < x) then scan pos image rest (some ⟪p' - pos, p' - pos⟫) (some s')
          else scan pos image rest best result

/-- `Builder.closest(pos)`; `H` are the keys of `self.H`. -/
noncomputable def closest (N : Num E t.k) (H : List (LSite t)) (pos : E) (fuel : ℕ) : Option (Except Err (Option (LSite t))) :=
  if t.k = 0 then scan t geom pos (fun s _ => some s) H none none
  else
    match H with
    | [] => some (.error .stop)
    | s0 :: _ =>
      match spaceBasis t geom s0 with
      | .error e => some (.error e)
      | .ok basis =>
        match lll N.lstsq basis 1.34 fuel with
        | none => none
        | some (.error e) => some (.error (.lll e))
        | some (.ok (v, coefs)) =>
          scan t geom pos (fun s p => (cvp N.lsq (N.sort v) (pos - p) v 1 false 1e-9 fuel).bind fun R =>
            R.head?.map fun shift => ⟨s.family, (∑ k, shift k • tagBasis t coefs s.family k) + s.tag⟩) H none none

/-! ### Specification -/

/-- All families of the sites have positions, and the periods of the symmetry are the linearly independent real space vectors `periods` for all of them (checked by
`TranslationalSymmetry.add_site_family`, lattice.py l.620-627). -/
structure Geometric (periods : Fin t.k → E) (H : List (LSite t)) (g : ∀ f : F, Geom E (t.fam f).dim) : Prop where
  has : ∀ s ∈ H, geom s.family = some (g s.family)
  per : ∀ s ∈ H, ∀ i, ∑ j, (t.fam s.family).mPart j i • (g s.family).prim j = periods i
  li : LinearIndependent ℝ periods

/-- The position of a site. -/
noncomputable def posOf {t : TransSym F} (g : ∀ f : F, Geom E (t.fam f).dim) (s : LSite t) : E := latPt (g s.family).prim s.tag + (g s.family).offset

/-! ### Proofs -/

theorem cvpLoop_mono {D : ℕ} {sort : (E → ℝ) → List (Fin D → ℤ) → List (Fin D → ℤ)} {basis : Fin D → E} {vec : E} {center : Fin D → ℤ} {n : ℕ} {group : Bool} {rtol : ℝ}
    {R : List (Fin D → ℤ)} {fuel fuel' : ℕ} (hf : fuel ≤ fuel') {l : ℕ} (h : cvpLoop sort basis vec center n group rtol fuel l = some R) :
    cvpLoop sort basis vec center n group rtol fuel' l = some R := by
  induction fuel generalizing fuel' l with
  | zero => simp [cvpLoop] at h
  | succ f ih =>
    obtain ⟨f', rfl⟩ : ∃ f', fuel' = f' + 1 := ⟨fuel' - 1, by omega⟩
    unfold cvpLoop at h ⊢
    split at h
    · next ha => rw [if_pos ha]; exact h
    · next ha => rw [if_neg ha]; exact ih (by omega) h

theorem mainLoop_mono {m : ℕ} {c : ℝ} {fuel fuel' : ℕ} (hf : fuel ≤ fuel') {s : ℕ × St E} {r : St E} (h : mainLoop m c fuel s = some r) : mainLoop m c fuel' s = some r := by
  induction fuel generalizing fuel' s with
  | zero => simp [mainLoop] at h
  | succ f ih =>
    obtain ⟨f', rfl⟩ : ∃ f', fuel' = f' + 1 := ⟨fuel' - 1, by omega⟩
    unfold mainLoop at h ⊢
    split at h
    · next ha => rw [if_pos ha]; exact ih (by omega) h
    · next ha => rw [if_neg ha]; exact h

theorem lll_mono {m : ℕ} {lstsq : (Fin m → E) → (Fin m → E) → Matrix (Fin m) (Fin m) ℝ} {basis : Fin m → E} {c : ℝ} {fuel fuel' : ℕ} (hf : fuel ≤ fuel')
    {r : Except LErr ((Fin m → E) × Matrix (Fin m) (Fin m) ℤ)} (h : lll lstsq basis c fuel = some r) : lll lstsq basis c fuel' = some r := by
  unfold lll at h ⊢
  obtain ⟨q, hq, rfl⟩ := Option.map_eq_some_iff.mp h
  rw [mainLoop_mono hf hq]
  rfl

variable {t} {geom}

/-- Squared distance. -/
noncomputable def sq (g : ∀ f : F, Geom E (t.fam f).dim) (pos : E) (s : LSite t) : ℝ := ⟪posOf g s - pos, posOf g s - pos⟫

theorem sq_le {g : ∀ f : F, Geom E (t.fam f).dim} {pos : E} {a b : LSite t} : sq g pos a ≤ sq g pos b ↔ ‖posOf g a - pos‖ ≤ ‖posOf g b - pos‖ := by
  unfold sq
  rw [real_inner_self_eq_norm_sq, real_inner_self_eq_norm_sq]
  exact pow_le_pow_iff_left₀ (norm_nonneg _) (norm_nonneg _) (by norm_num)

theorem sitePos_ok {g : ∀ f : F, Geom E (t.fam f).dim} {s : LSite t} (h : geom s.family = some (g s.family)) : sitePos t geom s = .ok (posOf g s) := by
  unfold sitePos
  rw [h]
  rfl

/-- The loop finds the closest of the images. -/
theorem scan_some {g : ∀ f : F, Geom E (t.fam f).dim} {pos : E} {image : LSite t → E → Option (LSite t)} {im : LSite t → LSite t} :
    ∀ (H : List (LSite t)) (r : LSite t), (∀ s ∈ H, geom s.family = some (g s.family) ∧ image s (posOf g s) = some (im s) ∧ (im s).family = s.family) →
      ∃ r', scan t geom pos image H (some (sq g pos r)) (some r) = some (.ok (some r')) ∧ sq g pos r' ≤ sq g pos r ∧ (∀ s ∈ H, sq g pos r' ≤ sq g pos (im s)) ∧
        (r' = r ∨ ∃ s ∈ H, r' = im s) := by
  intro H
  induction H with
  | nil => intro r _; exact ⟨r, rfl, le_rfl, by simp, Or.inl rfl⟩
  | cons s H ih =>
    intro r h
    obtain ⟨h1, h2, h3⟩ := h s (by simp)
    have h1' : geom (im s).family = some (g (im s).family) := by rw [h3]; exact h1
    have ht : ∀ s ∈ H, geom s.family = some (g s.family) ∧ image s (posOf g s) = some (im s) ∧ (im s).family = s.family := fun x hx => h x (List.mem_cons_of_mem _ hx)
    unfold scan
    rw [sitePos_ok h1]
    simp only [h2, sitePos_ok h1']
    by_cases hlt : ∀ x, some (sq g pos r) = some x → ⟪posOf g (im s) - pos, posOf g (im s) - pos⟫ < x
    · rw [if_pos hlt]
      have hl : sq g pos (im s) < sq g pos r := hlt _ rfl
      obtain ⟨r', e1, e2, e3, e4⟩ := ih (im s) ht
      refine ⟨r', e1, e2.trans hl.le, ?_, ?_⟩
      · intro x hx
        rcases List.mem_cons.mp hx with rfl | hx
        · exact e2
        · exact e3 x hx
      · right
        rcases e4 with e4 | ⟨x, hx, e4⟩
        · exact ⟨s, by simp, e4⟩
        · exact ⟨x, List.mem_cons_of_mem _ hx, e4⟩
    · rw [if_neg hlt]
      have hl : sq g pos r ≤ sq g pos (im s) := by
        push Not at hlt
        obtain ⟨x, hx, hle⟩ := hlt
        rw [Option.some.inj hx]; exact hle
      obtain ⟨r', e1, e2, e3, e4⟩ := ih r ht
      refine ⟨r', e1, e2, ?_, ?_⟩
      · intro x hx
        rcases List.mem_cons.mp hx with rfl | hx
        · exact e2.trans hl
        · exact e3 x hx
      · rcases e4 with e4 | ⟨x, hx, e4⟩
        · exact Or.inl e4
        · exact Or.inr ⟨x, List.mem_cons_of_mem _ hx, e4⟩

theorem scan_start {g : ∀ f : F, Geom E (t.fam f).dim} {pos : E} {image : LSite t → E → Option (LSite t)} {im : LSite t → LSite t} {H : List (LSite t)} (hne : H ≠ [])
    (h : ∀ s ∈ H, geom s.family = some (g s.family) ∧ image s (posOf g s) = some (im s) ∧ (im s).family = s.family) :
    ∃ r, scan t geom pos image H none none = some (.ok (some r)) ∧ (∀ s ∈ H, sq g pos r ≤ sq g pos (im s)) ∧ ∃ s ∈ H, r = im s := by
  obtain ⟨s, H, rfl⟩ := List.exists_cons_of_ne_nil hne
  obtain ⟨h1, h2, h3⟩ := h s (by simp)
  have h1' : geom (im s).family = some (g (im s).family) := by rw [h3]; exact h1
  unfold scan
  rw [sitePos_ok h1]
  simp only [h2, sitePos_ok h1']
  rw [if_pos (fun x hx => by cases hx)]
  obtain ⟨r', e1, e2, e3, e4⟩ := scan_some (geom := geom) (pos := pos) (image := image) (im := im) H (im s) (fun x hx => h x (List.mem_cons_of_mem _ hx))
  refine ⟨r', e1, ?_, ?_⟩
  · intro x hx
    rcases List.mem_cons.mp hx with rfl | hx
    · exact e2
    · exact e3 x hx
  · rcases e4 with e4 | ⟨x, hx, e4⟩
    · exact ⟨s, by simp, e4⟩
    · exact ⟨x, List.mem_cons_of_mem _ hx, e4⟩

/-- The sign of the action. -/
def sgn (t : TransSym F) : ℤ := if t.isReversed then -1 else 1

theorem act_eq (x : Fin t.k → ℤ) (s : LSite t) : t.act x s = ⟨s.family, s.tag + sgn t • (t.fam s.family).mPart.mulVec x⟩ := by
  unfold TransSym.act sgn
  by_cases h : t.isReversed <;> simp [h]

theorem latPt_add {D : ℕ} (b : Fin D → E) (x y : Fin D → ℤ) : latPt b (x + y) = latPt b x + latPt b y := by
  unfold latPt
  rw [← Finset.sum_add_distrib]
  refine Finset.sum_congr rfl fun j _ => ?_
  rw [Pi.add_apply]; push_cast; rw [add_smul]

/-- The symmetry translates by the periods. -/
theorem pos_act {periods : Fin t.k → E} {g : ∀ f : F, Geom E (t.fam f).dim} {s : LSite t} (hp : ∀ i, ∑ j, (t.fam s.family).mPart j i • (g s.family).prim j = periods i)
    (x : Fin t.k → ℤ) : posOf g (t.act x s) = posOf g s + latPt (fun i => sgn t • periods i) x := by
  rw [act_eq]
  show latPt (g s.family).prim (s.tag + sgn t • (t.fam s.family).mPart.mulVec x) + (g s.family).offset = _
  rw [latPt_add]
  have : latPt (g s.family).prim (sgn t • (t.fam s.family).mPart.mulVec x) = latPt (fun i => sgn t • periods i) x := by
    unfold latPt
    simp only [← hp, Finset.smul_sum]
    rw [Finset.sum_comm]
    refine Finset.sum_congr rfl fun j _ => ?_
    rw [Pi.smul_apply, Matrix.mulVec, dotProduct, smul_eq_mul, Finset.mul_sum]
    push_cast
    rw [Finset.sum_smul]
    refine Finset.sum_congr rfl fun i _ => ?_
    rw [← Int.cast_smul_eq_zsmul ℝ, ← Int.cast_smul_eq_zsmul ℝ, smul_smul, smul_smul]
    congr 1
    ring
  rw [this]
  unfold posOf
  abel

theorem latPt_unit (b : Fin t.k → E) (j : Fin t.k) : latPt b (unit t j) = b j := by
  unfold latPt unit
  rw [Finset.sum_eq_single j]
  · simp
  · intro i _ hi; simp [hi]
  · intro h; exact absurd (Finset.mem_univ _) h

theorem spaceBasis_ok {periods : Fin t.k → E} {H : List (LSite t)} {g : ∀ f : F, Geom E (t.fam f).dim} (hg : Geometric t geom periods H g) {s : LSite t} (hs : s ∈ H) :
    spaceBasis t geom s = .ok fun i => sgn t • periods i := by
  unfold spaceBasis
  rw [hg.has s hs]
  simp only
  congr 1
  funext j
  have h1 := pos_act (hg.per s hs) (unit t j)
  rw [latPt_unit] at h1
  have h2 : posOf g (t.act (unit t j) s) = tagPos (g s.family).prim (g s.family).offset (t.act (unit t j) s).tag := rfl
  have h3 : posOf g s = tagPos (g s.family).prim (g s.family).offset s.tag := rfl
  rw [← h2, ← h3, h1]
  abel

theorem mPart_unit (f : F) (j : Fin t.k) : (t.fam f).mPart.mulVec (unit t j) = fun x => (t.fam f).mPart x j := by
  funext x
  rw [Matrix.mulVec, dotProduct, Finset.sum_eq_single j]
  · simp [unit]
  · intro i _ hi; simp [unit, hi]
  · intro h; exact absurd (Finset.mem_univ _) h

theorem act_unit (f : F) (j : Fin t.k) : (t.act (unit t j) (⟨f, 0⟩ : LSite t)).tag = fun x : Fin (t.fam f).dim => sgn t * (t.fam f).mPart x j := by
  show ((0 : Fin (t.fam f).dim → ℤ) + (if t.isReversed then -((t.fam f).mPart.mulVec (unit t j)) else (t.fam f).mPart.mulVec (unit t j))) = _
  rw [mPart_unit, zero_add]
  unfold sgn
  by_cases hr : t.isReversed
  · rw [if_pos hr, if_pos hr]
    funext x
    rw [Pi.neg_apply]; ring
  · rw [if_neg hr, if_neg hr]
    funext x
    ring

theorem tagBasis_eq (coefs : Matrix (Fin t.k) (Fin t.k) ℤ) (f : F) (k : Fin t.k) (x : Fin (t.fam f).dim) :
    tagBasis t coefs f k x = ∑ j, coefs j k * (sgn t * (t.fam f).mPart x j) := by
  have h1 : tagBasis t coefs f k = ∑ j, coefs j k • fun x : Fin (t.fam f).dim => sgn t * (t.fam f).mPart x j :=
    Finset.sum_congr rfl fun j _ => congrArg (fun y => coefs j k • y) (act_unit f j)
  rw [h1, Finset.sum_apply]
  rfl

/-- The image of the code is an image under the symmetry. -/
theorem image_eq (coefs : Matrix (Fin t.k) (Fin t.k) ℤ) (s : LSite t) (shift : Fin t.k → ℤ) :
    (⟨s.family, (∑ k, shift k • tagBasis t coefs s.family k) + s.tag⟩ : LSite t) = t.act (coefs.mulVec shift) s := by
  rw [act_eq]
  congr 1
  rw [add_comm]
  congr 1
  funext x
  rw [Finset.sum_apply, Pi.smul_apply, Matrix.mulVec, dotProduct, smul_eq_mul, Finset.mul_sum]
  have h1 : ∀ k, (shift k • tagBasis t coefs s.family k) x = ∑ j, shift k * (coefs j k * (sgn t * (t.fam s.family).mPart x j)) := by
    intro k
    rw [Pi.smul_apply, smul_eq_mul, tagBasis_eq, Finset.mul_sum]
  simp only [h1]
  rw [Finset.sum_comm]
  refine Finset.sum_congr rfl fun j _ => ?_
  rw [Matrix.mulVec, dotProduct, Finset.mul_sum, Finset.mul_sum]
  exact Finset.sum_congr rfl fun k _ => by ring

theorem signed_li {periods : Fin t.k → E} (h : LinearIndependent ℝ periods) : LinearIndependent ℝ fun i => sgn t • periods i := by
  have hu : ∀ i : Fin t.k, IsUnit ((sgn t : ℤ) : ℝ) := fun i => by
    unfold sgn
    split <;> simp
  have := h.units_smul fun i => (hu i).unit
  convert this using 1
  funext i
  rw [Pi.smul_apply', Units.smul_def, IsUnit.unit_spec, Int.cast_smul_eq_zsmul]

/-- **C186** (with a symmetry): `Builder.closest(pos)` ends, and returns an image of a site of the builder under the symmetry; no image of any site is closer to
`pos`. -/
theorem C186_symmetry {N : Num E t.k} (hN : NumOk N) {periods : Fin t.k → E} {H : List (LSite t)} {g : ∀ f : F, Geom E (t.fam f).dim} (hg : Geometric t geom periods H g)
    (hk : t.k ≠ 0) (hH : H ≠ []) (pos : E) :
    ∃ fuel0, ∀ fuel ≥ fuel0, ∃ r, closest t geom N H pos fuel = some (.ok (some r)) ∧ (∃ s ∈ H, ∃ x, r = t.act x s) ∧
      ∀ s ∈ H, ∀ x, ‖posOf g r - pos‖ ≤ ‖posOf g (t.act x s) - pos‖ := by
  have hli := signed_li hg.li
  obtain ⟨f0, q, hq⟩ := C70_terminates N.lstsq hli (c := 1.34) (by norm_num)
  obtain ⟨v, coefs, rfl, -, hdet, hcols, hv, hred⟩ := C70_lll hN.lstsq hli hq
  have haux : AuxOk (fun i => sgn t • periods i) (⟨v, coefs, []⟩ : Aux E t.k) := ⟨hdet, hcols, hv, hred⟩
  have hterm : ∀ s : LSite t, ∃ fuel R, cvp N.lsq (N.sort v) (pos - posOf g s) v 1 false 1e-9 fuel = some R := fun s =>
    C71_terminates (hN.sort v) hv (by omega) _ le_rfl _
  choose fs Rs hRs using hterm
  refine ⟨max f0 ((H.map fs).foldr max 0), fun fuel hfuel => ?_⟩
  have hsh : ∀ s, ∃ c, Rs s = [c] := fun s => List.length_eq_one_iff.mp (C71_closest hN.lsq (hN.sort v) hv le_rfl (hRs s)).1
  choose sh hsh using hsh
  have hbest : ∀ s z, ‖latPt v (sh s) - (pos - posOf g s)‖ ≤ ‖latPt v z - (pos - posOf g s)‖ := fun s z => by
    obtain ⟨-, -, -, h4⟩ := C71_closest hN.lsq (hN.sort v) hv le_rfl (hRs s)
    by_cases e : z = sh s
    · rw [e]
    · exact h4 z (by rw [hsh]; simpa using e) _ (by rw [hsh]; simp)
  have hfs : ∀ s ∈ H, cvp N.lsq (N.sort v) (pos - posOf g s) v 1 false 1e-9 fuel = some [sh s] := fun s hs => by
    rw [← hsh]
    have hle : fs s ≤ (H.map fs).foldr max 0 := by
      clear hRs hsh hbest hfuel
      induction H with
      | nil => cases hs
      | cons a H ih =>
        rw [List.map_cons, List.foldr_cons]
        rcases List.mem_cons.mp hs with rfl | hs
        · exact le_max_left _ _
        · by_cases hne : H = []
          · rw [hne] at hs; cases hs
          · exact (ih ⟨fun s h => hg.has s (List.mem_cons_of_mem _ h), fun s h => hg.per s (List.mem_cons_of_mem _ h), hg.li⟩ hne hs).trans (le_max_right _ _)
    exact cvpLoop_mono (hle.trans ((le_max_right _ _).trans hfuel)) (hRs s)
  obtain ⟨s0, H', rfl⟩ := List.exists_cons_of_ne_nil hH
  have hscan := scan_start (geom := geom) (g := g) (pos := pos) (image := fun s p => (cvp N.lsq (N.sort v) (pos - p) v 1 false 1e-9 fuel).bind fun R =>
      R.head?.map fun shift => (⟨s.family, (∑ k, shift k • tagBasis t coefs s.family k) + s.tag⟩ : LSite t)) (im := fun s => t.act (coefs.mulVec (sh s)) s) hH
      (fun s hs => ⟨hg.has s hs, by rw [hfs s hs, ← image_eq]; rfl, rfl⟩)
  obtain ⟨r, e1, e2, s, hs, e3⟩ := hscan
  refine ⟨r, ?_, ⟨s, hs, _, e3⟩, ?_⟩
  · unfold closest
    rw [if_neg hk]
    simp only
    rw [spaceBasis_ok hg (s := s0) (by simp)]
    simp only
    rw [lll_mono ((le_max_left _ _).trans hfuel) hq]
    exact e1
  · intro s hs x
    obtain ⟨z, hz⟩ := mulVec_surj haux x
    have hz' : coefs.mulVec z = x := hz
    refine (sq_le.mp (e2 s hs)).trans ?_
    rw [← hz', pos_act (hg.per s hs), pos_act (hg.per s hs)]
    have h1 : latPt (fun i => sgn t • periods i) (coefs.mulVec (sh s)) = latPt v (sh s) := latPt_mulVec haux (sh s)
    have h2 : latPt (fun i => sgn t • periods i) (coefs.mulVec z) = latPt v z := latPt_mulVec haux z
    rw [h1, h2]
    have h3 := hbest s z
    have h4 : ∀ y : E, posOf g s + y - pos = y - (pos - posOf g s) := fun y => by abel
    rw [h4, h4]
    exact h3

/-- **C186** (without symmetry): the closest site of the builder, and `None` if there is no site. -/
theorem C186_finite {N : Num E t.k} {H : List (LSite t)} {g : ∀ f : F, Geom E (t.fam f).dim} (hg : ∀ s ∈ H, geom s.family = some (g s.family)) (hk : t.k = 0) (pos : E) (fuel : ℕ) :
    (H = [] → closest t geom N H pos fuel = some (.ok none)) ∧ (H ≠ [] → ∃ r ∈ H, closest t geom N H pos fuel = some (.ok (some r)) ∧
      ∀ s ∈ H, ‖posOf g r - pos‖ ≤ ‖posOf g s - pos‖) := by
  unfold closest
  rw [if_pos hk]
  constructor
  · rintro rfl; rfl
  · intro hne
    obtain ⟨r, e1, e2, s, hs, e3⟩ := scan_start (geom := geom) (g := g) (pos := pos) (image := fun s _ => some s) (im := fun s => s) hne fun s hs => ⟨hg s hs, rfl, rfl⟩
    exact ⟨r, by rw [e3]; exact hs, e1, fun s hs => sq_le.mp (e2 s hs)⟩

/-- **C186**: a site without a position raises an `AttributeError`, and an empty builder with a symmetry a `StopIteration`. -/
theorem C186_errors {N : Num E t.k} (pos : E) (fuel : ℕ) :
    (t.k ≠ 0 → closest t geom N [] pos fuel = some (.error .stop)) ∧
    ∀ (s : LSite t) (H : List (LSite t)), geom s.family = none → closest t geom N (s :: H) pos fuel = some (.error .noPos) := by
  constructor
  · intro hk
    unfold closest
    rw [if_neg hk]
  · intro s H hs
    unfold closest
    split
    · unfold scan sitePos
      rw [hs]
    · simp only [spaceBasis, hs]

end Kwant.ClosestSite

/-! ### Example -/

namespace Kwant.ClosestSite
open Kwant.LLL Kwant.Cvp Kwant.Lat

/-- One period 2 a₀ + a₁ of the square lattice. -/
def exSym : TransSym Unit := ⟨1, fun _ => ⟨2, !![2, 0; 1, 1], by decide, by simp [Matrix.det_fin_two]⟩, false⟩

/-- The square lattice with an offset. -/
noncomputable def exGeom : ∀ f : Unit, Geom (EuclideanSpace ℝ (Fin 2)) (exSym.fam f).dim :=
  fun _ => ⟨fun j : Fin 2 => EuclideanSpace.single j 1, EuclideanSpace.single 0 (1 / 2)⟩

/-- The hypotheses of `C186_symmetry` hold: a ribbon that is two sites wide. -/
example : Geometric exSym (fun f => some (exGeom f)) (fun _ => (2 : ℤ) • EuclideanSpace.single 0 (1 : ℝ) + (1 : ℤ) • EuclideanSpace.single (1 : Fin 2) (1 : ℝ))
    [⟨(), (![0, 0] : Fin 2 → ℤ)⟩, ⟨(), (![1, 0] : Fin 2 → ℤ)⟩] exGeom where
  has _ _ := rfl
  per s _ i := by
    have hi : i = (0 : Fin 1) := Subsingleton.elim (α := Fin 1) _ _
    subst hi
    exact Fin.sum_univ_two (fun j : Fin 2 => (!![2, 0; 1, 1] : Matrix (Fin 2) (Fin 2) ℤ) j 0 • (EuclideanSpace.single j 1 : EuclideanSpace ℝ (Fin 2)))
  li := by
    show LinearIndependent ℝ (fun _ : Fin 1 => (2 : ℤ) • (EuclideanSpace.single 0 1 : EuclideanSpace ℝ (Fin 2)) + (1 : ℤ) • EuclideanSpace.single 1 1)
    rw [linearIndependent_unique_iff]
    intro h
    have := congrArg (fun v : EuclideanSpace ℝ (Fin 2) => v 1) h
    simp at this

end Kwant.ClosestSite
