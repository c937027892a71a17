import Verif.Oper.Laws

/-!
Where the operators are wrong (C56, C57), what the constructors guarantee, and concrete operators that meet the hypotheses
of the theorems.
-/

set_option linter.unusedSectionVars false

namespace Kwant.Oper
open Kwant Kwant.System Finset

/-- The complex numbers. -/
noncomputable instance : CLike ℂ where
  I := Complex.I
  re := fun z => (z.re : ℂ)
  star_I := by simp
  re_self := fun x h => by
    have := Complex.conj_eq_iff_re.mp h
    exact this

section
variable {R P E F : Type} [CommRing R] [StarRing R] [DecidableEq R] [CLike R] [DecidableEq F]

/-! ### What `_normalize_onsite` guarantees -/

theorem normalizeOnsite_herm {r : List (ℕ × ℕ × ℕ)} {hs : Bool} {fam : ℕ → F} {norbs : F → ℕ} {herm : Bool}
    {arg : OnsiteArg R P E F} {m : Mat R} (h : normalizeOnsite r hs fam norbs herm arg = .ok (.mat m)) (hh : herm = true) :
    isHermConj m m = true := by
  unfold normalizeOnsite at h
  cases arg with
  | func f => cases h
  | dict d =>
    simp only at h
    split at h
    · cases h
    · split at h <;> cases h
  | single m0 =>
    simp only at h
    split at h
    · cases h
    · next hc =>
      have hc' := (checkOnsite_iff (E := E) m0 m0.rows herm).mp hc
      have h0 := hc'.2.2 hh
      split at h
      · next h1 =>
        cases h
        unfold isHermConj at h0 ⊢
        simp only [List.all_eq_true, List.mem_range, decide_eq_true_eq] at h0 ⊢
        have := h0 0 (by omega) 0 (by omega)
        intro i _ j _
        show (if i = j then _ else (0 : R)) = star (if j = i then _ else (0 : R))
        by_cases hij : i = j
        · rw [if_pos hij, if_pos hij.symm]; exact this
        · rw [if_neg hij, if_neg (Ne.symm hij), star_zero]
      · split at h
        · split at h
          · cases h
          · cases h; exact h0
        · cases h

/-- A scalar `onsite` becomes that multiple of the identity, of the size of the largest site. -/
theorem normalizeOnsite_scalar (r : List (ℕ × ℕ × ℕ)) (hs : Bool) (fam : ℕ → F) (norbs : F → ℕ) (herm : Bool) (c : R)
    (hc : herm = true → star c = c) :
    normalizeOnsite (E := E) (P := P) r hs fam norbs herm (.single ⟨1, 1, fun _ _ => c⟩) = .ok (.mat (scalarMat c (maxNorbs r))) := by
  have h : checkOnsite (E := E) (⟨1, 1, fun _ _ => c⟩ : Mat R) 1 herm = .ok () := by
    rw [checkOnsite_iff]
    refine ⟨rfl, rfl, fun h => ?_⟩
    simp [isHermConj, hc h]
  unfold normalizeOnsite
  simp only [h, if_true]

/-! ### C56: scalar onsite, sites with different numbers of orbitals -/

theorem scalar_second (junk : ℕ → R) (c : R) {n N : ℕ} (h1 : 1 < n) (h2 : n < N) : flat junk (scalarMat c N) (1 * n + 1) = 0 := by
  unfold flat scalarMat
  simp only [Nat.one_mul]
  rw [if_pos (by nlinarith)]
  rcases Nat.lt_or_ge (n + 1) N with h | h
  · rw [Nat.div_eq_of_lt h, Nat.mod_eq_of_lt h, if_neg (by omega)]
  · have : n + 1 = N := by omega
    rw [this, Nat.div_self (by omega), Nat.mod_self, if_neg (by omega)]

/-- The unit vector. -/
def unitVec (n k : ℕ) : List R := (List.range n).map fun i => if i = k then 1 else 0

theorem unitVec_get (n k i : ℕ) (hk : k < n) : (unitVec n k : List R).getD i 0 = if i = k then 1 else 0 := by
  unfold unitVec
  rw [List.getD_eq_getElem?_getD, List.getElem?_map]
  by_cases hi : i < n
  · rw [List.getElem?_range hi]; rfl
  · rw [List.getElem?_eq_none (by simp; omega), if_neg (by omega)]; rfl

/-- C56 is false for a scalar onsite if a site has more than one orbital but fewer than another site: for the state that
occupies the second orbital of that site the density `c` is documented, and `0` is returned.  For every system with such a
site, and whatever the memory contains. -/
theorem C56_counterexample {norb : ℕ → ℕ} {op : Op R P E} {a : ℕ} {c : R} {junk : ℕ → R} {p : Option P}
    (hk : op.kind = .density) (hon : op.onsite = .mat (scalarMat c (maxNorbs op.ranges))) (hw : op.wh = [(a, a)])
    (hg : GoodRanges op.ranges op.nSites norb) (ha : a < op.nSites) (hu : Unbound op) (h1 : 1 < norb a)
    (h2 : norb a < maxNorbs op.ranges) (hc : c ≠ 0) (hch : op.check = false) :
    let ψ := unitVec (firstOrb norb op.nSites) (firstOrb norb a + 1)
    callVec junk op ψ none p = .ok [0] ∧
    matEl (firstOrb norb op.nSites) (fun i => ψ.getD i 0) (densityQ norb a fun i j => if i = j then c else 0) (fun i => ψ.getD i 0) = c ∧
    callVec junk op ψ none p ≠ .ok [c] := by
  have hlt := firstOrb_le (norb := norb) ha
  have key : callVec junk op (unitVec (firstOrb norb op.nSites) (firstOrb norb a + 1)) none p = .ok [0] := by
    unfold callVec
    have hb : op.bound = false := by simp [Op.bound, hu.1, hu.2]
    simp only [hb, Bool.false_and, Bool.false_eq_true, if_false, Option.getD_none, hg.2]
    rw [if_neg (by simp [unitVec])]
    have hp : prepare junk op p = .ok (fun _ => flat junk (scalarMat c (maxNorbs op.ranges)), ⟨[], [], [], 0, fun _ => 0⟩) := by
      simp only [prepare, onsitePtr, hon, hk]
    simp only [hp, hw, List.length_singleton, hch, Bool.false_and, Bool.false_eq_true, if_false]
    rw [show List.range 1 = [0] from rfl, List.map_singleton]
    rw [if_neg (by simp [unitVec])]
    refine congrArg (fun x => Except.ok [x]) ?_
    simp only [blockEl, hk, hw, List.getD_cons_zero, hg.1 a ha]
    rw [densityEl_eq]
    refine Finset.sum_eq_zero fun i _ => ?_
    refine Finset.sum_eq_zero fun j _ => ?_
    rw [unitVec_get _ _ _ (by omega), unitVec_get _ _ _ (by omega)]
    by_cases hi1 : i = 1
    · by_cases hj1 : j = 1
      · rw [hi1, hj1, scalar_second junk c h1 h2]; simp
      · rw [if_neg (c := firstOrb norb a + j = _) (by omega)]; simp
    · rw [if_neg (by omega)]; simp
  refine ⟨key, ?_, ?_⟩
  · unfold densityQ
    rw [matEl_embed ha ha, Finset.sum_eq_single 1, Finset.sum_eq_single 1]
    · rw [unitVec_get _ _ _ (by omega)]; simp
    · intro j _ hj
      rw [unitVec_get _ _ (firstOrb norb a + j) (by omega), if_neg (c := firstOrb norb a + j = _) (by omega)]; simp
    · intro hx; exact absurd (Finset.mem_range.mpr h1) hx
    · intro j _ hj
      refine Finset.sum_eq_zero fun k _ => ?_
      rw [unitVec_get _ _ (firstOrb norb a + j) (by omega), if_neg (c := firstOrb norb a + j = _) (by omega)]; simp
    · intro hx; exact absurd (Finset.mem_range.mpr h1) hx
  · rw [key]
    intro h
    simp only [Except.ok.injEq, List.cons.injEq, and_true] at h
    exact hc h.symm

/-- C56, `tocoo`: with a scalar onsite the matrix has entries outside of the site if the site has fewer orbitals than another
one: either `tocoo` raises an exception, or the entry on the orbital after the site is not zero. -/
theorem C56_tocoo_counterexample {norb : ℕ → ℕ} {op : Op R P E} {a : ℕ} {c : R} {junk : ℕ → R} {p : Option P}
    (hon : op.onsite = .mat (scalarMat c (maxNorbs op.ranges))) (hw : op.wh = [(a, a)])
    (hg : GoodRanges op.ranges op.nSites norb) (ha : a < op.nSites)
    (h2 : norb a < maxNorbs op.ranges) (hc : c ≠ 0) :
    (∃ e, tocoo junk op p = .error e) ∨
    ∃ l, tocoo junk op p = .ok l ∧ cooVal l (firstOrb norb a + norb a) (firstOrb norb a + norb a) = c ∧
      densityQ norb a (scalarMat c (norb a)).val (firstOrb norb a + norb a) (firstOrb norb a + norb a) ≠ c := by
  cases h : tocoo junk op p with
  | error e => exact Or.inl ⟨e, rfl⟩
  | ok l =>
    refine Or.inr ⟨l, rfl, ?_, ?_⟩
    · unfold tocoo at h
      split at h
      · cases h
      · simp only [cooBlocks, hon] at h
        split at h
        · cases h
        · cases h
          rw [cooLoop_val _ _ _ (by simp [allOrbs])]
          simp only [hw, allOrbs, List.map_cons, List.map_nil, List.length_singleton, Finset.sum_range_one, List.getD_cons_zero,
            hg.1 a ha, List.take_zero, sizes, List.sum_nil, Nat.zero_add, scalarMat]
          have hm : ∀ k ∈ List.range (maxNorbs op.ranges * maxNorbs op.ranges),
              (if (firstOrb norb a + k / maxNorbs op.ranges, firstOrb norb a + k % maxNorbs op.ranges) =
                (firstOrb norb a + norb a, firstOrb norb a + norb a) then
                flat junk (⟨maxNorbs op.ranges, maxNorbs op.ranges, fun i j => if i = j then c else 0⟩ : Mat R)
                  (k % (maxNorbs op.ranges * maxNorbs op.ranges)) else 0) =
              if (firstOrb norb a + k / maxNorbs op.ranges, firstOrb norb a + k % maxNorbs op.ranges) =
                (firstOrb norb a + norb a, firstOrb norb a + norb a) then
                (fun i j : ℕ => if i = j then c else 0) (k / maxNorbs op.ranges) (k % maxNorbs op.ranges) else 0 := by
            intro k hk
            have hk' := List.mem_range.mp hk
            rw [Nat.mod_eq_of_lt hk']
            unfold flat
            rw [if_pos hk']
          rw [List.map_congr_left hm, entry_sum (fun i j : ℕ => if i = j then c else 0)]
          rw [if_pos (by omega)]
          simp
    · unfold densityQ embed OnSite
      rw [if_neg (by omega)]
      exact Ne.symm hc

end

/-! ### C57: callable onsite, ends with different numbers of orbitals -/

/-- Two sites with two and one orbitals and a Hermitian hopping. -/
def mixedHam (a b : ℕ) (_ : Option Unit) : Except Unit (Mat ℂ) :=
  if a = 0 ∧ b = 1 then .ok ⟨2, 1, fun i _ => if i = 1 then 1 else 0⟩
  else if a = 1 ∧ b = 0 then .ok ⟨1, 2, fun _ j => if j = 1 then 1 else 0⟩
  else if a = 0 then .ok ⟨2, 2, fun _ _ => 0⟩
  else .ok ⟨1, 1, fun _ _ => 0⟩

/-- Orbitals of the two sites. -/
def mixedNorb (a : ℕ) : ℕ := if a = 0 then 2 else if a = 1 then 1 else 0

/-- `Current(syst, lambda site: identity(norbs of the site), where=[(0, 1)])` -/
def mixedOp : Op ℂ Unit Unit :=
  { kind := .current, wh := [(0, 1)], onsite := .func fun a _ => .ok (scalarMat 1 (mixedNorb a))
    ranges := [(0, 2, 0), (1, 1, 2), (2, 0, 3)], nSites := 2, ham := mixedHam, check := true, sum := false
    boundOnsite := none, boundHam := none }

theorem mixed_orbs (a : ℕ) (ha : a ≤ 2) : getOrbs mixedOp.ranges a = (firstOrb mixedNorb a, mixedNorb a) := by
  rw [show mixedOp.ranges = (0, 2, 0) :: [(1, 1, 2), (2, 0, 3)] from rfl, getOrbs_eq _ _ (by decide) rfl]
  have : a = 0 ∨ a = 1 ∨ a = 2 := by omega
  rcases this with rfl | rfl | rfl <;> simp [lastLE, firstOrb, mixedNorb, Finset.sum_range_succ]

theorem mixed_ranges : GoodRanges mixedOp.ranges mixedOp.nSites mixedNorb :=
  ⟨fun a ha => mixed_orbs a (le_of_lt ha), by rw [totNorbs, mixed_orbs mixedOp.nSites (le_refl 2)]⟩

theorem mixed_onsites (junk : ℕ → ℂ) : ∃ M, onsitePtr junk mixedOp none = .ok M ∧ M 0 0 = 1 ∧ M 0 1 = 0 ∧ ∀ k, 2 ≤ k → M 0 k = junk k := by
  have hs : (allOrbs mixedOp.wh mixedOp.ranges).2 = [(2, 1)] := by
    show [((getOrbs mixedOp.ranges 0).2, (getOrbs mixedOp.ranges 1).2)] = _
    rw [mixed_orbs 0 (by omega), mixed_orbs 1 (by omega)]; rfl
  have ho : (allOrbs mixedOp.wh mixedOp.ranges).1 = [(0, 2)] := by
    show [((getOrbs mixedOp.ranges 0).1, (getOrbs mixedOp.ranges 1).1)] = _
    rw [mixed_orbs 0 (by omega), mixed_orbs 1 (by omega)]; rfl
  have hc : checkOnsite (E := Unit) (scalarMat (1 : ℂ) 2) 2 true = .ok () := by
    rw [checkOnsite_iff]
    refine ⟨rfl, rfl, fun _ => ?_⟩
    unfold isHermConj
    simp only [List.all_eq_true, List.mem_range, decide_eq_true_eq]
    intro i _ j _
    show (if i = j then (1 : ℂ) else 0) = star (if j = i then (1 : ℂ) else 0)
    by_cases h : i = j
    · rw [if_pos h, if_pos h.symm, star_one]
    · rw [if_neg h, if_neg (Ne.symm h), star_zero]
  have hg : getOnsite (fun a _ => .ok (scalarMat 1 (mixedNorb a))) (none : Option Unit) true 0 2 1 1 = (.ok (scalarMat 1 2) : Except (OErr Unit) (Mat ℂ)) := by
    unfold getOnsite
    simp only [show mixedNorb 0 = 2 from rfl, hc]
  unfold onsitePtr
  simp only [show mixedOp.onsite = .func (fun a _ => .ok (scalarMat 1 (mixedNorb a))) from rfl,
    show mixedOp.boundOnsite = none from rfl]
  unfold evalOnsites BSM.init
  rw [hs, ho]
  simp only [show mixedOp.wh = [(0, 1)] from rfl, show mixedOp.check = true from rfl, List.length_singleton, ne_eq, not_true_eq_false,
    or_self, if_false, offsetsLoop, populate, hg]
  refine ⟨_, rfl, ?_, ?_, ?_⟩
  · simp only [BSM.get, List.getD_cons_zero]
    rw [copyMat_eq]; simp [scalarMat]
  · simp only [BSM.get, List.getD_cons_zero]
    rw [copyMat_eq]; simp [scalarMat]
  · intro k hk
    simp only [BSM.get, List.getD_cons_zero]
    rw [copyMat_eq]
    rw [if_neg (by omega), Nat.zero_add]

theorem mixed_ham (junk : ℕ → ℂ) : ∃ B, hamBlocks junk mixedOp none = .ok B ∧ B.blockOffsets = [(0, 2)] ∧ B.blockShapes = [(2, 1)] ∧
    B.get 0 0 = 0 ∧ B.get 0 1 = 1 := by
  have hs : (allOrbs mixedOp.wh mixedOp.ranges).2 = [(2, 1)] := by
    show [((getOrbs mixedOp.ranges 0).2, (getOrbs mixedOp.ranges 1).2)] = _
    rw [mixed_orbs 0 (by omega), mixed_orbs 1 (by omega)]; rfl
  have ho : (allOrbs mixedOp.wh mixedOp.ranges).1 = [(0, 2)] := by
    show [((getOrbs mixedOp.ranges 0).1, (getOrbs mixedOp.ranges 1).1)] = _
    rw [mixed_orbs 0 (by omega), mixed_orbs 1 (by omega)]
    simp [firstOrb, mixedNorb]
  have hh : isHermConj (⟨1, 2, fun _ j => if j = 1 then 1 else 0⟩ : Mat ℂ) ⟨2, 1, fun i _ => if i = 1 then 1 else 0⟩ = true := by
    unfold isHermConj
    simp only [List.all_eq_true, List.mem_range, decide_eq_true_eq]
    intro i _ j _
    show (if j = 1 then (1 : ℂ) else 0) = star (if j = 1 then (1 : ℂ) else 0)
    split <;> simp
  have hg : getHam (fun a b => mixedHam a b none) true 0 2 1 1 = (.ok ⟨2, 1, fun i _ => if i = 1 then 1 else 0⟩ : Except (OErr Unit) (Mat ℂ)) := by
    unfold getHam checkHam
    simp [mixedHam, hamShapeBad, hh]
  unfold hamBlocks evalHam BSM.init
  simp only [show mixedOp.boundHam = none from rfl]
  rw [hs, ho]
  simp only [show mixedOp.wh = [(0, 1)] from rfl, show mixedOp.check = true from rfl, show mixedOp.ham = mixedHam from rfl,
    List.length_singleton, ne_eq, not_true_eq_false, or_self, if_false, offsetsLoop, populate, hg]
  refine ⟨_, rfl, rfl, rfl, ?_, ?_⟩
  · simp only [BSM.get, List.getD_cons_zero]
    rw [copyMat_eq]; simp
  · simp only [BSM.get, List.getD_cons_zero]
    rw [copyMat_eq]; simp

/-- C57 is false for a callable onsite if the ends of the hopping have different numbers of orbitals: with the identity as
onsite and a Hermitian hopping, the documented matrix element between the only orbital of site 1 and the second orbital of
site 0 is `i`; the code multiplies by whatever the memory contains after the stored matrix. -/
theorem C57_counterexample (junk : ℕ → ℂ) :
    callVec junk mixedOp (unitVec 3 2) (some (unitVec 3 1)) none = .ok [Complex.I * junk 3] ∧
    matEl 3 (fun i => (unitVec 3 2).getD i 0) (currentQ mixedNorb 0 1 (scalarMat (1 : ℂ) 2).val fun i _ => if i = 1 then 1 else 0)
      (fun i => (unitVec 3 1).getD i 0) = Complex.I := by
  have hI : (CLike.I : ℂ) = Complex.I := rfl
  have f0 : firstOrb mixedNorb 0 = 0 := rfl
  have f1 : firstOrb mixedNorb 1 = 2 := by simp [firstOrb, mixedNorb]
  constructor
  · obtain ⟨M, m1, m2, m3, m4⟩ := mixed_onsites junk
    obtain ⟨B, b1, b2, b3, b4, b5⟩ := mixed_ham junk
    have ht : totNorbs mixedOp.ranges mixedOp.nSites = 3 := by
      rw [mixed_ranges.2]
      simp [firstOrb, mixedNorb, Finset.sum_range_succ, show mixedOp.nSites = 2 from rfl]
    unfold callVec
    rw [ht]
    have hp : prepare junk mixedOp none = .ok (M, B) := by
      simp only [prepare, m1, b1, show mixedOp.kind = .current from rfl]
    simp only [hp]
    rw [show mixedOp.bound = false from rfl]
    simp only [Bool.false_and, Bool.false_eq_true, if_false, Option.getD_some, Option.isNone_some, Bool.and_false]
    rw [if_neg (by simp [unitVec]), if_neg (by simp [unitVec])]
    rw [show mixedOp.wh.length = 1 from rfl, show List.range 1 = [0] from rfl, List.map_singleton]
    refine congrArg (fun x => Except.ok [x]) ?_
    simp only [blockEl, show mixedOp.kind = .current from rfl, b2, b3, List.getD_cons_zero, currentEl_eq, hI]
    simp only [unitVec_get 3 2 _ (by omega), unitVec_get 3 1 _ (by omega), Finset.sum_range_succ, Finset.sum_range_zero]
    simp [b4, b5, m4]
  · rw [show (3 : ℕ) = firstOrb mixedNorb 2 by simp [firstOrb, mixedNorb, Finset.sum_range_succ]]
    unfold currentQ
    rw [matEl_sub, matEl_embed (by omega) (by omega), matEl_embed (by omega) (by omega)]
    rw [show firstOrb mixedNorb 2 = 3 by simp [firstOrb, mixedNorb, Finset.sum_range_succ]]
    simp only [unitVec_get 3 2 _ (by omega), unitVec_get 3 1 _ (by omega), f0, f1, mixedNorb, daggerMul, matMul, scalarMat, hI]
    simp [Finset.sum_range_succ]

/-! ### Operators that meet the hypotheses -/

/-- A Hermitian 2x2 matrix. -/
def sigmaY : Mat ℂ := ⟨2, 2, fun i j => if i = 0 ∧ j = 1 then -Complex.I else if i = 1 ∧ j = 0 then Complex.I else 0⟩

/-- Two sites with two orbitals each, spin current, source or density. -/
def spinOp (k : Kind) : Op ℂ Unit Unit :=
  { kind := k, wh := match k with | .current => [(0, 1), (1, 0)] | _ => [(0, 0), (1, 1)], onsite := .mat sigmaY
    ranges := [(0, 2, 0), (2, 0, 4)], nSites := 2, ham := fun _ _ _ => .ok sigmaY, check := true, sum := false
    boundOnsite := none, boundHam := none }

theorem sigmaY_herm : isHermConj sigmaY sigmaY = true := by
  unfold isHermConj
  simp only [List.all_eq_true, List.mem_range, decide_eq_true_eq]
  intro i _ j _
  show (if i = 0 ∧ j = 1 then -Complex.I else if i = 1 ∧ j = 0 then Complex.I else 0) =
    star (if j = 0 ∧ i = 1 then -Complex.I else if j = 1 ∧ i = 0 then Complex.I else 0)
  by_cases h1 : i = 0 ∧ j = 1
  · obtain ⟨rfl, rfl⟩ := h1; simp
  · by_cases h2 : i = 1 ∧ j = 0
    · obtain ⟨rfl, rfl⟩ := h2; simp
    · rw [if_neg h1, if_neg h2, if_neg (fun h => h2 ⟨h.2, h.1⟩), if_neg (fun h => h1 ⟨h.2, h.1⟩), star_zero]

theorem spin_orbs (a : ℕ) (ha : a ≤ 2) : getOrbs [(0, 2, 0), (2, 0, 4)] a = (firstOrb (fun _ => 2) a, if a < 2 then 2 else 0) := by
  rw [getOrbs_eq _ _ (by decide) rfl]
  have : a = 0 ∨ a = 1 ∨ a = 2 := by omega
  rcases this with rfl | rfl | rfl <;> simp [lastLE, firstOrb]

/-- The hypotheses of the theorems on operators are met by a spin density, a spin current and a spin source. -/
theorem spin_regular (k : Kind) : Regular (fun _ => 2) (spinOp k) ∧ Unbound (spinOp k) := by
  refine ⟨⟨⟨fun a ha => ?_, ?_⟩, ?_, ?_, ?_, ?_, ?_⟩, rfl, rfl⟩
  · show getOrbs [(0, 2, 0), (2, 0, 4)] a = _
    rw [spin_orbs a (le_of_lt ha), if_pos (show a < 2 from ha)]
  · show (getOrbs [(0, 2, 0), (2, 0, 4)] 2).1 = _
    rw [spin_orbs 2 (le_refl 2)]; rfl
  · cases k <;> simp [spinOp]
  · cases k <;> simp [spinOp]
  · intro m hm h _
    cases hm
    exact Or.inl ⟨rfl, rfl⟩
  · intro f hf; cases hf
  · intro m hm _
    cases hm
    exact sigmaY_herm

/-- ... and they can be evaluated. -/
theorem spin_call (k : Kind) (junk : ℕ → ℂ) (ψ : List ℂ) (hψ : ψ.length = 4) : ∃ v, callVec junk (spinOp k) ψ none none = .ok v := by
  have ht : totNorbs (spinOp k).ranges (spinOp k).nSites = 4 := by
    show (getOrbs [(0, 2, 0), (2, 0, 4)] 2).1 = _
    rw [spin_orbs 2 (le_refl 2)]; simp [firstOrb]
  have hp : ∃ r, prepare junk (spinOp k) none = .ok r := by
    have hh : ∃ B, hamBlocks junk (spinOp k) none = .ok B := by
      unfold hamBlocks evalHam
      simp only [show (spinOp k).boundHam = none from rfl]
      have hlt : ∀ h ∈ (spinOp k).wh, h.1 < 2 ∧ h.2 < 2 := (spin_regular k).1.sites
      have hg : ∀ a b, getHam (fun a b => (spinOp k).ham a b none) (spinOp k).check a 2 b 2 = .ok sigmaY := by
        intro a b
        simp only [getHam, checkHam, show (spinOp k).ham = fun _ _ _ => .ok sigmaY from rfl, show (spinOp k).check = true from rfl]
        have : hamShapeBad sigmaY 2 2 = false := rfl
        simp [this, sigmaY_herm]
      refine (C52_succeeds junk _ _ _ _).mpr ⟨by simp [allOrbs], by simp [allOrbs], ?_⟩
      intro w a b n m hw hs
      have hm := hlt _ (List.mem_of_getElem? hw)
      have := (allOrbs_get (spin_regular k).1.ranges (spin_regular k).1.sites hw).2
      rw [this] at hs
      cases hs
      exact ⟨_, hg a b⟩
    obtain ⟨B, hB⟩ := hh
    unfold prepare onsitePtr
    simp only [show (spinOp k).onsite = .mat sigmaY from rfl]
    cases hk : (spinOp k).kind with
    | density => exact ⟨_, rfl⟩
    | current => simp only [hB]; exact ⟨_, rfl⟩
    | source => simp only [hB]; exact ⟨_, rfl⟩
  obtain ⟨⟨M, B⟩, hr⟩ := hp
  unfold callVec
  rw [ht, hr, show (spinOp k).bound = false from rfl]
  simp [hψ]

end Kwant.Oper
