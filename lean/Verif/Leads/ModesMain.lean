import Verif.Leads.ModesJoin

/-!
C114: `modes` (kwant/physics/leads.py l.986-1160), for Hamiltonians with conservation laws and discrete symmetries.
-/

set_option linter.unusedSectionVars false

namespace Kwant.Leads
open Matrix Complex Filter

variable {n : ℕ}

/-! ### Specification -/

/-- The order of the modes in one block: modes moving towards the scattering region by increasing momentum, the others by decreasing momentum, those with the same
momentum by their velocity. -/
def BM.Sorted (m : BM n) : Prop :=
  (∀ i j, i < j → m.mom (.inl i) < m.mom (.inl j) ∨ (m.mom (.inl i) = m.mom (.inl j) ∧ m.vel (.inl i) ≤ m.vel (.inl j))) ∧
  (∀ i j, i < j → m.mom (.inr j) < m.mom (.inr i) ∨ (m.mom (.inr i) = m.mom (.inr j) ∧ m.vel (.inr i) ≤ m.vel (.inr j)))

/-- A unitary operator `U` (times complex conjugation, if `conj`) with `h U = ± U h` or `h U = ± U h*`, and the same for the hopping, all of whose blocks vanish or are
unitary. -/
structure SymOk (P : Projectors n) (conj flip : Bool) (h hop U : Matrix (Fin n) (Fin n) ℂ) : Prop where
  cell : h * U = (if flip then -1 else 1 : ℂ) • (U * h.map (cj conj))
  hop : hop * U = (if flip then -1 else 1 : ℂ) • (U * hop.map (cj conj))
  canonical : ∀ x y, let B := (P.proj y)ᴴ * U * (P.proj x).map (cj conj)
    B = 0 ∨ (Bᴴ * B = 1 ∧ B * Bᴴ = 1)

/-- The discrete symmetries are symmetries of the lead, in the canonical form. -/
structure SymmOk (P : Projectors n) (sy : Symm n) (h hop : Matrix (Fin n) (Fin n) ℂ) : Prop where
  tr : ∀ U, sy.tr = some U → SymOk P true false h hop U
  ph : ∀ U, sy.ph = some U → SymOk P true true h hop U
  chiral : ∀ U, sy.chiral = some U → SymOk P false true h hop U

/-- The full matrix `v`, from its rows for the orbitals of the interface. -/
def padRows {m r : ℕ} (v : Matrix (Fin m) (Fin r) ℂ) : Matrix (Fin n) (Fin r) ℂ := of fun x i => if h : x.val < m then v ⟨x.val, h⟩ i else 0

/-- What `modes` promises. -/
structure ModesSpec (P : Projectors n) (sy : Symm n) (h : Matrix (Fin n) (Fin n) ℂ) {m : ℕ} (hhop : Matrix (Fin n) (Fin m) ℂ) (M : LeadModes n m) : Prop where
  /-- The modes are the propagating and evanescent solutions in the lead, with unit current. -/
  spec : ∃ s, LeadSpec h (padHop hhop) M.wf M.mom M.vel M.stab.vecslmbdainv M.stab.vecs (padRows M.stab.sqrtHop) s ∧ (sy.ph = none → sy.chiral = none → ∀ i, s i = 1)
  number : M.p + M.q = M.r
  incoming : ∀ i, M.vel (.inl i) < 0
  outgoing : ∀ i, 0 < M.vel (.inr i)
  /-- The modes are ordered by the blocks, and the wave function of a mode is in the space of its block. -/
  blocks : ∀ nm, M.blockNmodes = some nm → ∃ blk : Fin M.p → Fin P.nb, Monotone blk ∧ nm = (List.finRange P.nb).map (fun b => (Finset.univ.filter fun i => blk i = b).card) ∧
    (∀ i, (P.proj (blk i) * (P.proj (blk i))ᴴ) *ᵥ M.wf.col (.inl i) = M.wf.col (.inl i)) ∧
    (∀ i, (P.proj (blk i) * (P.proj (blk i))ᴴ) *ᵥ M.wf.col (.inr i) = M.wf.col (.inr i)) ∧
    (sy = ⟨none, none, none⟩ → (∀ a b, a ≠ b → ¬(SameBlock P h a b ∧ SameBlock P (padHop hhop) a b)) → ∀ i j, i < j → blk i = blk j →
      (M.mom (.inl i) < M.mom (.inl j) ∨ (M.mom (.inl i) = M.mom (.inl j) ∧ M.vel (.inl i) ≤ M.vel (.inl j))) ∧
      (M.mom (.inr j) < M.mom (.inr i) ∨ (M.mom (.inr i) = M.mom (.inr j) ∧ M.vel (.inr i) ≤ M.vel (.inr j))))

/-! ### Blocks that are computed -/

theorem halves_spec {h hop : Matrix (Fin n) (Fin n) ℂ} {m : BlockModes n} (hm : BlockSpec h hop m) :
    ∃ M, halves m = .ok M ∧ M.Spec h hop (fun _ => 1) ∧ M.Directed ∧ M.Sorted := by
  have he := hm.even
  refine ⟨_, dif_pos he, ?_, ⟨?_, ?_⟩, ?_, ?_⟩
  · exact hm.lead.reindex (halfIdx he) (Equiv.refl _) (Equiv.refl _)
  · intro i
    change m.velocities (halfIdx he (.inl i)) < 0
    rw [hm.halves]
    exact i.2
  · intro i
    change 0 < m.velocities (halfIdx he (.inr i))
    have h1 : ¬ m.velocities (halfIdx he (.inr i)) < 0 := by
      rw [hm.halves]
      have : (halfIdx he (.inr i)).val = m.N / 2 + i.val := rfl
      omega
    exact lt_of_le_of_ne (not_lt.mp h1) (Ne.symm (hm.nonzero _))
  · intro i j hij
    refine hm.sorted _ _ ?_ ?_ ?_
    · exact hij
    · rw [hm.halves]; exact i.2
    · rw [hm.halves]; exact j.2
  · intro i j hij
    have hpos : ∀ i, 0 < m.velocities (halfIdx he (.inr i)) := by
      intro i
      have h1 : ¬ m.velocities (halfIdx he (.inr i)) < 0 := by
        rw [hm.halves]
        have : (halfIdx he (.inr i)).val = m.N / 2 + i.val := rfl
        omega
      exact lt_of_le_of_ne (not_lt.mp h1) (Ne.symm (hm.nonzero _))
    refine hm.sorted' _ _ ?_ (hpos i) (hpos j)
    have h1 : (halfIdx he (.inr i)).val = m.N / 2 + i.val := rfl
    have h2 : (halfIdx he (.inr j)).val = m.N / 2 + j.val := rfl
    rw [Fin.lt_def, h1, h2]
    have : i.val < j.val := hij
    omega

/-! ### Blocks that are transformed -/

theorem Rel.perm_inl (k : Rel) {p : ℕ} (i : Fin p) : k.perm (.inl i) = match k with
    | .unitary => .inl i
    | .tr => .inr i.rev
    | .ph => .inl i.rev
    | .chiral => .inr i := by
  have hp := i.2
  rw [Rel.perm, Equiv.symm_apply_eq]
  cases k <;> apply Fin.ext <;> simp only [finSumFinEquiv_apply_left, finSumFinEquiv_apply_right, Fin.val_castAdd, Fin.val_natAdd, permN, Fin.val_rev]
  · omega
  · have h1 : (i : ℕ) / p = 0 := Nat.div_eq_of_lt hp
    have h2 : (-1 - (i : ℤ)) % p = p - (i + 1) := by
      rw [← Int.add_mul_emod_self_right (-1 - (i : ℤ)) 1 p, Int.emod_eq_of_lt (by omega) (by omega)]
      ring
    rw [h1, h2]
    simp
    omega
  · have h1 : (i : ℕ) % p = i := Nat.mod_eq_of_lt hp
    change (i : ℕ) % p + p * (if (i : ℕ) < p then 1 else 0) = p + i
    rw [if_pos hp, h1]
    omega

theorem Rel.perm_inr (k : Rel) {p : ℕ} (i : Fin p) : k.perm (.inr i) = match k with
    | .unitary => .inr i
    | .tr => .inl i.rev
    | .ph => .inr i.rev
    | .chiral => .inl i := by
  have hp := i.2
  rw [Rel.perm, Equiv.symm_apply_eq]
  cases k <;> apply Fin.ext <;> simp only [finSumFinEquiv_apply_left, finSumFinEquiv_apply_right, Fin.val_castAdd, Fin.val_natAdd, permN, Fin.val_rev]
  · omega
  · have h1 : (p + (i : ℕ)) / p = 1 := by rw [Nat.add_div_left _ (by omega), Nat.div_eq_of_lt hp]
    have h2 : (-1 - ((p + (i : ℕ) : ℕ) : ℤ)) % p = p - (i + 1) := by
      rw [← Int.add_mul_emod_self_right _ 2 p, Int.emod_eq_of_lt (by push_cast; omega) (by push_cast; omega)]
      push_cast
      ring
    rw [h1, h2]
    simp
    omega
  · change (p + (i : ℕ)) % p + p * (if p + (i : ℕ) < p then 1 else 0) = i
    rw [if_neg (by omega), Nat.add_mod_left, Nat.mod_eq_of_lt hp]
    omega

/-- `perm` is a permutation. -/
def Rel.permE (k : Rel) (p : ℕ) : Fin p ⊕ Fin p ≃ Fin p ⊕ Fin p := Function.Involutive.toPerm k.perm (by
  rintro (i | i)
  · rw [k.perm_inl]
    cases k <;> dsimp only <;> simp only [Rel.perm_inl, Rel.perm_inr, Fin.rev_rev]
  · rw [k.perm_inr]
    cases k <;> dsimp only <;> simp only [Rel.perm_inl, Rel.perm_inr, Fin.rev_rev])

/-- `transform_modes` gives the modes of the related block. -/
theorem transform_spec {n' : ℕ} {k : Rel} {U : Matrix (Fin n') (Fin n) ℂ} {h hop : Matrix (Fin n) (Fin n) ℂ} {h' hop' : Matrix (Fin n') (Fin n') ℂ} {m : BM n}
    {s : Fin m.p ⊕ Fin m.p → ℂ} (hr : Related U k.conj k.flip h hop h' hop') (hm : m.Spec h hop s) (hd : m.Directed) :
    (transformModes k U m).Spec h' hop' (fun x => (if k.flip then -1 else 1) * s (k.perm x)) ∧ (transformModes k U m).Directed := by
  constructor
  · exact (LeadSpec.transform hm hr).reindex (k.permE m.p) (Equiv.refl _) (Equiv.refl _)
  · obtain ⟨h1, h2⟩ := hd
    constructor
    · refine fun (i : Fin m.p) => ?_
      change (if k.flip ≠ k.conj then -1 else 1) * m.vel (k.perm (.inl i)) < 0
      rw [k.perm_inl]
      cases k
      · simpa [Rel.flip, Rel.conj] using h1 i
      · simpa [Rel.flip, Rel.conj] using h2 i.rev
      · simpa [Rel.flip, Rel.conj] using h1 i.rev
      · simpa [Rel.flip, Rel.conj] using h2 i
    · refine fun (i : Fin m.p) => ?_
      change 0 < (if k.flip ≠ k.conj then -1 else 1) * m.vel (k.perm (.inr i))
      rw [k.perm_inr]
      cases k
      · simpa [Rel.flip, Rel.conj] using h2 i
      · simpa [Rel.flip, Rel.conj] using h1 i.rev
      · simpa [Rel.flip, Rel.conj] using h2 i.rev
      · simpa [Rel.flip, Rel.conj] using h1 i

theorem nonzeroSymm_some {a b : ℕ} {m B : Matrix (Fin a) (Fin b) ℂ} (h : nonzeroSymm m = some B) : B = m ∧ m ≠ 0 := by
  rw [nonzeroSymm] at h
  split at h
  · rename_i h1
    refine ⟨(Option.some.inj h).symm, ?_⟩
    rintro rfl
    simp at h1
    norm_num at h1
  · cases h

/-- A symmetry of the lead relates the blocks. -/
theorem SymOk.related {P : Projectors n} {h hop U : Matrix (Fin n) (Fin n) ℂ} {c fl : Bool} (hP : P.Ok h hop) (hs : SymOk P c fl h hop U) {x y : Fin P.nb}
    (hne : (P.proj y)ᴴ * U * (P.proj x).map (cj c) ≠ 0) :
    Related ((P.proj y)ᴴ * U * (P.proj x).map (cj c)) c fl (P.blk h x x) (P.blk hop x x) (P.blk h y y) (P.blk hop y y) := by
  obtain ⟨h1, h2⟩ := (hs.canonical x y).resolve_left hne
  have key : ∀ a : Matrix (Fin n) (Fin n) ℂ, (∀ x y, x ≠ y → P.blk a x y = 0) → a * U = (if fl then -1 else 1 : ℂ) • (U * a.map (cj c)) →
      P.blk a y y * ((P.proj y)ᴴ * U * (P.proj x).map (cj c)) = (if fl then -1 else 1 : ℂ) • ((P.proj y)ᴴ * U * (P.proj x).map (cj c) * (P.blk a x x).map (cj c)) := by
    intro a ha hU
    rw [← Matrix.mul_assoc, ← Matrix.mul_assoc, ← Projectors.proj_mul hP.complete ha, Matrix.mul_assoc _ a, hU, Matrix.mul_smul, Matrix.smul_mul, Matrix.mul_assoc _ _ ((P.blk a x x).map _),
      ← cj_mul, ← Projectors.mul_proj hP.complete ha, cj_mul]
    simp only [Matrix.mul_assoc]
  exact ⟨h1, h2, key h hP.cell hs.cell, key hop hP.hop hs.hop⟩

theorem idMat_mul {a b : ℕ} (hab : a = b) : (idMat b a)ᴴ * idMat b a = 1 ∧ idMat b a * (idMat b a)ᴴ = 1 := by
  subst hab
  have : idMat a a = 1 := by
    ext i j
    simp [idMat, one_apply, Fin.ext_iff]
  rw [this]
  simp

theorem sameBlock_mul {P : Projectors n} {a : Matrix (Fin n) (Fin n) ℂ} {x y : Fin P.nb} (hs : SameBlock P a x y) :
    P.blk a y y * idMat (P.dim y) (P.dim x) = idMat (P.dim y) (P.dim x) * P.blk a x x := by
  obtain ⟨hd, he⟩ := hs
  ext i j
  rw [Matrix.mul_apply, Matrix.mul_apply, Finset.sum_eq_single (j.cast hd), Finset.sum_eq_single (i.cast hd.symm)]
  · have := he (i.cast hd.symm) j
    rw [this]
    simp [idMat]
  · intro k _ hk
    have : ¬ (i.val = k.val) := fun h => hk (Fin.ext h.symm)
    simp [idMat, this]
  · intro h; exact absurd (Finset.mem_univ _) h
  · intro k _ hk
    have : ¬ (k.val = j.val) := fun h => hk (Fin.ext h)
    simp [idMat, this]
  · intro h; exact absurd (Finset.mem_univ _) h

theorem cj_false {A B : Type} (M : Matrix A B ℂ) : M.map (cj false) = M := by
  ext i j
  simp [cj]

theorem relation_related {P : Projectors n} {sy : Symm n} {h hop : Matrix (Fin n) (Fin n) ℂ} (hP : P.Ok h hop) (hsy : SymmOk P sy h hop) {i j : Fin P.nb} {k : Rel}
    {U : Matrix (Fin (P.dim j)) (Fin (P.dim i)) ℂ} (hr : relation P sy h hop i j = some (k, U)) :
    Related U k.conj k.flip (P.blk h i i) (P.blk hop i i) (P.blk h j j) (P.blk hop j j) ∧ (k.flip = true → sy.ph ≠ none ∨ sy.chiral ≠ none) := by
  rw [relation] at hr
  split at hr
  · rename_i hsame
    obtain ⟨h1, h2⟩ := hsame
    cases hr
    obtain ⟨u1, u2⟩ := idMat_mul h1.choose
    refine ⟨⟨u1, u2, ?_, ?_⟩, by simp [Rel.flip]⟩
    · simp only [Rel.flip, Rel.conj, cj_false, Bool.false_eq_true, if_false, one_smul]
      exact sameBlock_mul h1
    · simp only [Rel.flip, Rel.conj, cj_false, Bool.false_eq_true, if_false, one_smul]
      exact sameBlock_mul h2
  · have hz : ∀ c, (P.proj j)ᴴ * (0 : Matrix (Fin n) (Fin n) ℂ) * (P.proj i).map (cj c) = 0 := by
      intro c
      rw [Matrix.mul_zero, Matrix.zero_mul]
    split at hr
    · rename_i V hV
      cases hr
      obtain ⟨e, hne⟩ := nonzeroSymm_some hV
      rw [e]
      cases ht : sy.tr with
      | none =>
        rw [ht] at hne
        exact absurd (hz true) hne
      | some T =>
        rw [ht] at hne
        exact ⟨(hsy.tr T ht).related hP hne, by simp [Rel.flip]⟩
    · split at hr
      · rename_i V hV
        cases hr
        obtain ⟨e, hne⟩ := nonzeroSymm_some hV
        rw [e]
        cases ht : sy.ph with
        | none =>
          rw [ht] at hne
          exact absurd (hz true) hne
        | some T =>
          rw [ht] at hne
          exact ⟨(hsy.ph T ht).related hP hne, fun _ => .inl (by simp)⟩
      · split at hr
        · rename_i V hV
          cases hr
          obtain ⟨e, hne⟩ := nonzeroSymm_some hV
          rw [e]
          cases ht : sy.chiral with
          | none =>
            rw [ht] at hne
            refine absurd ?_ hne
            rw [Projectors.blk, Option.getD_none, Matrix.mul_zero, Matrix.zero_mul]
          | some T =>
            rw [ht] at hne
            have e2 : P.blk T j i = (P.proj j)ᴴ * T * (P.proj i).map (cj false) := by rw [cj_false]; rfl
            rw [Option.getD_some] at hne ⊢
            rw [e2] at hne ⊢
            exact ⟨(hsy.chiral T ht).related hP hne, fun _ => .inr (by simp)⟩
        · cases hr

/-! ### The loop -/

/-- The invariant of the loop. -/
def Inv (P : Projectors n) (sy : Symm n) (h hop : Matrix (Fin n) (Fin n) ℂ) (st : BState P) : Prop :=
  ∀ b m, st b = some m → (∃ s, m.Spec (P.blk h b b) (P.blk hop b b) s ∧ (sy.ph = none → sy.chiral = none → ∀ i, s i = 1)) ∧ m.Directed ∧
    (sy = ⟨none, none, none⟩ → (∀ a b, a ≠ b → ¬(SameBlock P h a b ∧ SameBlock P hop a b)) → m.Sorted)

/-- Every block that is computed directly satisfies the specification of a block. -/
def BlocksOk (e : ModesNum) (P : Projectors n) (sy : Symm n) (h hop : Matrix (Fin n) (Fin n) ℂ) : Prop :=
  ∀ b m, computeBlockModes (e.num (P.dim b)) ⟨symTr P sy b b, symPh P sy b b, symChiral P sy b b⟩ (e.junk b) (P.blk h b b) (P.blk hop b b) e.stab = .ok m →
    BlockSpec (P.blk h b b) (P.blk hop b b) m

theorem relation_none {P : Projectors n} {h hop : Matrix (Fin n) (Fin n) ℂ} (hne : ∀ a b, a ≠ b → ¬(SameBlock P h a b ∧ SameBlock P hop a b)) {i j : Fin P.nb} (hij : i ≠ j) :
    relation P ⟨none, none, none⟩ h hop i j = none := by
  have hz : ∀ {a b : ℕ}, nonzeroSymm (0 : Matrix (Fin a) (Fin b) ℂ) = none := by
    intro a b
    rw [nonzeroSymm, if_neg]
    simp
  have h1 : symTr P ⟨none, none, none⟩ j i = none := by
    rw [symTr, Projectors.ablk, Option.getD_none, Matrix.mul_zero, Matrix.zero_mul, hz]
  have h2 : symPh P ⟨none, none, none⟩ j i = none := by
    rw [symPh, Projectors.ablk, Option.getD_none, Matrix.mul_zero, Matrix.zero_mul, hz]
  have h3 : symChiral P ⟨none, none, none⟩ j i = none := by
    rw [symChiral, Projectors.blk, Option.getD_none, Matrix.mul_zero, Matrix.zero_mul, hz]
  rw [relation, if_neg (hne i j hij), h1, h2, h3]

theorem BState.set_self {P : Projectors n} (st : BState P) (b : Fin P.nb) (m : BM (P.dim b)) : st.set b m b = some m := by
  rw [BState.set, Function.update_self]

theorem BState.set_ne {P : Projectors n} (st : BState P) {b b' : Fin P.nb} (hb : b' ≠ b) (m : BM (P.dim b)) : st.set b m b' = st b' := by
  rw [BState.set, Function.update_of_ne hb]

theorem Inv.set {P : Projectors n} {sy : Symm n} {h hop : Matrix (Fin n) (Fin n) ℂ} {st : BState P} (hi : Inv P sy h hop st) {b : Fin P.nb} {m : BM (P.dim b)}
    (hm : (∃ s, m.Spec (P.blk h b b) (P.blk hop b b) s ∧ (sy.ph = none → sy.chiral = none → ∀ i, s i = 1)) ∧ m.Directed ∧
      (sy = ⟨none, none, none⟩ → (∀ a b, a ≠ b → ¬(SameBlock P h a b ∧ SameBlock P hop a b)) → m.Sorted)) : Inv P sy h hop (st.set b m) := by
  intro b' m' hm'
  by_cases hb : b' = b
  · subst hb
    rw [BState.set_self] at hm'
    cases hm'
    exact hm
  · rw [BState.set_ne _ hb] at hm'
    exact hi b' m' hm'

/-- One step of the loop: it keeps the invariant, it only fills blocks, and it fills block `i` if it treats the pair `(i, i)`. -/
theorem modesStep_spec {e : ModesNum} {P : Projectors n} {sy : Symm n} {h hop : Matrix (Fin n) (Fin n) ℂ} (hP : P.Ok h hop) (hsy : SymmOk P sy h hop) (hb : BlocksOk e P sy h hop)
    {st st' : BState P} {i j : Fin P.nb} (hst : Inv P sy h hop st) (hs : modesStep e P sy h hop st i j = .ok st') :
    Inv P sy h hop st' ∧ (∀ b, (st b).isSome → (st' b).isSome) ∧ (i = j → (st' i).isSome) := by
  have mono : ∀ (b : Fin P.nb) m b', (st b').isSome → (st.set b m b').isSome := by
    intro b m b' h1
    by_cases hbb : b' = b
    · subst hbb
      rw [BState.set_self]; rfl
    · rw [BState.set_ne _ hbb]; exact h1
  rw [modesStep] at hs
  by_cases hij : i = j
  · rw [if_pos hij] at hs
    split at hs
    · rename_i m hm
      cases hs
      exact ⟨hst, fun _ h1 => h1, fun _ => by rw [hm]; rfl⟩
    · split at hs
      · cases hs
      rename_i m hm
      obtain ⟨M, h1, h2, h3, h4⟩ := halves_spec (hb i m hm)
      rw [h1] at hs
      cases hs
      exact ⟨hst.set ⟨⟨_, h2, fun _ _ _ => rfl⟩, h3, fun _ _ => h4⟩, mono i M, fun _ => by rw [BState.set_self]; rfl⟩
  · rw [if_neg hij] at hs
    split at hs
    · cases hs
      exact ⟨hst, fun _ h1 => h1, fun h1 => absurd h1 hij⟩
    · split at hs
      · cases hs
        exact ⟨hst, fun _ h1 => h1, fun h1 => absurd h1 hij⟩
      · split at hs
        · cases hs
          exact ⟨hst, fun _ h1 => h1, fun h1 => absurd h1 hij⟩
        rename_i k U hr
        split at hs
        · cases hs
        rename_i m hm
        cases hs
        obtain ⟨⟨s, h1, h2⟩, h3, h4⟩ := hst i m hm
        obtain ⟨hrel, hfl⟩ := relation_related hP hsy hr
        obtain ⟨h5, h6⟩ := transform_spec hrel h1 h3
        refine ⟨hst.set ⟨⟨_, h5, ?_⟩, h6, ?_⟩, mono j _, fun h1 => absurd h1 hij⟩
        · intro hph hch x
          have : k.flip = false := by
            cases hk : k.flip
            · rfl
            · rcases hfl hk with h7 | h7
              · exact absurd hph h7
              · exact absurd hch h7
          rw [this, h2 hph hch]
          simp
        · intro hno hne
          rw [hno, relation_none hne hij] at hr
          cases hr

theorem runModes_spec {e : ModesNum} {P : Projectors n} {sy : Symm n} {h hop : Matrix (Fin n) (Fin n) ℂ} (hP : P.Ok h hop) (hsy : SymmOk P sy h hop) (hb : BlocksOk e P sy h hop)
    (l : List (Fin P.nb × Fin P.nb)) {st st' : BState P} (hst : Inv P sy h hop st) (hs : runModes e P sy h hop l st = .ok st') :
    Inv P sy h hop st' ∧ (∀ b, (st b).isSome → (st' b).isSome) ∧ ∀ b, (b, b) ∈ l → (st' b).isSome := by
  induction l generalizing st with
  | nil =>
    cases hs
    exact ⟨hst, fun _ h1 => h1, by simp⟩
  | cons x l ih =>
    obtain ⟨i, j⟩ := x
    rw [runModes] at hs
    split at hs
    · cases hs
    rename_i st1 h1
    obtain ⟨a1, a2, a3⟩ := modesStep_spec hP hsy hb hst h1
    obtain ⟨b1, b2, b3⟩ := ih a1 hs
    refine ⟨b1, fun b hb => b2 b (a2 b hb), ?_⟩
    intro b hbl
    rcases List.mem_cons.mp hbl with h2 | h2
    · obtain ⟨h3, h4⟩ := Prod.mk.inj h2
      subst h3
      exact b2 _ (a3 h4)
    · exact b3 b h2

theorem mem_pairs {nb : ℕ} (i j : Fin nb) : (i, j) ∈ pairs nb ↔ i ≤ j := by
  simp [pairs]

/-! ### Joining -/

/-- The propagating modes of all blocks, in the order of the joined arrays. -/
def groupEquiv {nb : ℕ} (p : Fin nb → ℕ) : Fin (∑ b, p b) ⊕ Fin (∑ b, p b) ≃ Σ b, (Fin (p b) ⊕ Fin (p b)) :=
  (Equiv.sumCongr finSigmaFinEquiv.symm finSigmaFinEquiv.symm).trans
    { toFun := Sum.elim (fun c => ⟨c.1, .inl c.2⟩) (fun c => ⟨c.1, .inr c.2⟩)
      invFun := fun c => match c with
        | ⟨b, .inl i⟩ => .inl ⟨b, i⟩
        | ⟨b, .inr i⟩ => .inr ⟨b, i⟩
      left_inv := by rintro (⟨b, i⟩ | ⟨b, i⟩) <;> rfl
      right_inv := by rintro ⟨b, i | i⟩ <;> rfl }

theorem joinBlocks_eq {P : Projectors n} {r p q : Fin P.nb → ℕ} (v : (b : Fin P.nb) → Matrix (Fin (r b)) ((Fin (p b) ⊕ Fin (p b)) ⊕ Fin (q b)) ℂ) :
    joinBlocks v = (joinX v).submatrix finSigmaFinEquiv.symm (Sum.map (groupEquiv p) finSigmaFinEquiv.symm) := by
  have key : ∀ {K : Fin P.nb → Type} (g : (b : Fin P.nb) → K b → (Fin (p b) ⊕ Fin (p b)) ⊕ Fin (q b)) (x : Σ b, Fin (r b)) (c : Σ b, K b),
      blockDiagonal' (fun b => (v b).submatrix id (g b)) x c = blockDiagonal' v x ⟨c.1, g c.1 c.2⟩ := by
    rintro K g ⟨b, x⟩ ⟨b', c⟩
    by_cases hb : b = b'
    · subst hb
      rw [blockDiagonal'_apply_eq, blockDiagonal'_apply_eq]
      rfl
    · rw [blockDiagonal'_apply_ne _ _ _ hb, blockDiagonal'_apply_ne _ _ _ hb]
  ext x c
  rcases c with (c | c) | c
  · exact key (fun b => Sum.inl ∘ Sum.inl) _ _
  · exact key (fun b => Sum.inl ∘ Sum.inr) _ _
  · exact key (fun b => Sum.inr) _ _

theorem join_spec {P : Projectors n} {h hop : Matrix (Fin n) (Fin n) ℂ} (hP : P.Ok h hop) {m : (b : Fin P.nb) → BM (P.dim b)}
    {s : (b : Fin P.nb) → Fin (m b).p ⊕ Fin (m b).p → ℂ} (hs : ∀ b, (m b).Spec (P.blk h b b) (P.blk hop b b) (s b)) (hd : ∀ b, (m b).Directed) :
    (joinModes P m).Spec h hop (groupHalves s) ∧ (joinModes P m).Directed := by
  constructor
  · have h1 := (LeadSpec.join hP hs).reindex (groupEquiv fun b => (m b).p) finSigmaFinEquiv.symm (finSigmaFinEquiv (n := fun b => (m b).r)).symm
    have hgrp : ∀ {α : Type} (f : (b : Fin P.nb) → Fin (m b).p ⊕ Fin (m b).p → α), groupHalves f = (fun c : Σ b, (Fin (m b).p ⊕ Fin (m b).p) => f c.1 c.2) ∘ groupEquiv fun b => (m b).p := by
      intro α f
      ext c
      rcases c with c | c <;> rfl
    unfold BM.Spec
    have e1 : (joinModes P m).wf = (hcat fun b => (m b).wf).submatrix id (groupEquiv fun b => (m b).p) := by
      ext x c
      rcases c with c | c <;> rfl
    have e2 : (joinModes P m).vecs = joinBlocks fun b => (m b).vecs := rfl
    have e3 : (joinModes P m).vecsl = joinBlocks fun b => (m b).vecsl := rfl
    have e4 : (joinModes P m).v = (hcat fun b => (m b).v).submatrix id (finSigmaFinEquiv (n := fun b => (m b).r)).symm := rfl
    have e5 : (joinModes P m).mom = groupHalves fun b => (m b).mom := rfl
    have e6 : (joinModes P m).vel = groupHalves fun b => (m b).vel := rfl
    rw [e1, e2, e3, e4, e5, e6, joinBlocks_eq, joinBlocks_eq, hgrp s, hgrp, hgrp]
    exact h1
  · constructor
    · intro i
      exact (hd _).1 _
    · intro i
      exact (hd _).2 _

end Kwant.Leads
