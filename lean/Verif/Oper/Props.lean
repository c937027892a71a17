import Verif.Oper.Spec

/-!
C56 (`Density`), C57 (`Current`, `Source`), C58 (`bind`).
-/

set_option linter.unusedSectionVars false

namespace Kwant.Oper
open Kwant Kwant.System Finset

section
variable {R P E : Type} [CommRing R] [StarRing R] [DecidableEq R] [CLike R]

/-! ### Statements -/

/-- The site ranges describe `n` sites with `norb` orbitals each (C43 shows this of the ranges of a finalized builder). -/
def GoodRanges (r : List (ℕ × ℕ × ℕ)) (n : ℕ) (norb : ℕ → ℕ) : Prop :=
  (∀ a < n, getOrbs r a = (firstOrb norb a, norb a)) ∧ totNorbs r n = firstOrb norb n

/-- The onsite matrix of site `a`. -/
def OnsiteIs (op : Op R P E) (p : Option P) (a : ℕ) (M : Mat R) : Prop :=
  match op.onsite with
  | .mat m => M = m
  | .func f => f a p = .ok M

/-- The documented tensor for the three kinds of operators. -/
def blockQ (k : Kind) (norb : ℕ → ℕ) (a b : ℕ) (M H : ℕ → ℕ → R) : ℕ → ℕ → R :=
  match k with
  | .density => densityQ norb a M
  | .current => currentQ norb a b M H
  | .source => sourceQ norb a M H

/-- `Q` is the documented tensor of the operator: `Q w` belongs to element `w` of `where`. -/
def IsTensor (norb : ℕ → ℕ) (op : Op R P E) (p : Option P) (Q : ℕ → ℕ → ℕ → R) : Prop :=
  ∀ w a b : ℕ, op.wh[w]? = some (a, b) → ∃ M H, OnsiteIs op p a M ∧ (op.kind ≠ .density → op.ham a b p = .ok H) ∧
    Q w = blockQ op.kind norb a b M.val H.val

/-- Circumstances in which the code is right (see the counterexamples): `where` contains sites of the system; operators on
sites have pairs `(a, a)`; a single onsite matrix has the size of every site with more than one orbital; for a callable onsite
the two ends of each hopping have the same number of orbitals. -/
structure Regular (norb : ℕ → ℕ) (op : Op R P E) : Prop where
  ranges : GoodRanges op.ranges op.nSites norb
  sites : ∀ h ∈ op.wh, h.1 < op.nSites ∧ h.2 < op.nSites
  diag : (match op.kind with | .current => False | _ => True) → ∀ h ∈ op.wh, h.2 = h.1
  mat : ∀ m, op.onsite = .mat m → ∀ h ∈ op.wh, (m.rows = norb h.1 ∧ m.cols = norb h.1) ∨ (norb h.1 = 1 ∧ 0 < m.rows ∧ 0 < m.cols)
  func : ∀ f, op.onsite = .func f → ∀ h ∈ op.wh, norb h.2 = norb h.1
  herm : ∀ m, op.onsite = .mat m → op.check = true → isHermConj m m = true

/-- Not bound to parameters. -/
def Unbound (op : Op R P E) : Prop := op.boundOnsite = none ∧ op.boundHam = none

/-! ### Proofs -/

theorem hermOn_of_check {m : Mat R} {n : ℕ} (h : isHermConj m m = true) (hr : m.rows = n) (hc : m.cols = n) : HermOn n m.val := by
  unfold isHermConj at h
  simp only [List.all_eq_true, List.mem_range, decide_eq_true_eq, hr, hc] at h
  intro i hi j hj
  rw [h j hj i hi]

theorem flat_at (junk : ℕ → R) (m : Mat R) {n : ℕ} (hr : m.rows = n) (hc : m.cols = n) {i j : ℕ} (hi : i < n) (hj : j < n) :
    flat junk m (i * n + j) = m.val i j := by
  unfold flat
  rw [hr, hc, if_pos (by nlinarith)]
  rw [Nat.add_comm, Nat.add_mul_div_right _ _ (by omega), Nat.add_mul_mod_self_right, Nat.div_eq_of_lt hj, Nat.mod_eq_of_lt hj, Nat.zero_add]

theorem checkOnsite_iff (M : Mat R) (n : ℕ) (c : Bool) :
    checkOnsite (E := E) M n c = .ok () ↔ M.rows = n ∧ M.cols = n ∧ (c = true → isHermConj M M = true) := by
  unfold checkOnsite
  by_cases h1 : M.rows = M.cols
  · by_cases h2 : M.rows = n
    · rw [if_neg (by simpa using h1), if_neg (by simpa using h2)]
      by_cases h3 : (c && !isHermConj M M) = true
      · rw [if_pos h3]
        simp only [Bool.and_eq_true, Bool.not_eq_true'] at h3
        refine ⟨fun h => (by cases h), fun h => ?_⟩
        rw [h.2.2 h3.1] at h3; cases h3.2
      · rw [if_neg h3]
        refine ⟨fun _ => ⟨h2, by omega, fun hc => by simpa [hc] using h3⟩, fun _ => rfl⟩
    · rw [if_neg (by simpa using h1), if_pos h2]
      exact ⟨fun h => (by cases h), fun h => absurd h.1 h2⟩
  · rw [if_pos h1]
    exact ⟨fun h => (by cases h), fun h => absurd (by omega) h1⟩

theorem getOnsite_iff {f : ℕ → Option P → Except (OErr E) (Mat R)} {p : Option P} {check : Bool} {a aN b bN : ℕ} {M : Mat R} :
    getOnsite f p check a aN b bN = .ok M ↔
    f a p = .ok M ∧ M.rows = aN ∧ M.cols = aN ∧ (check = true → isHermConj M M = true) := by
  unfold getOnsite
  cases hf : f a p with
  | error e => simp
  | ok m =>
    simp only
    cases hc : checkOnsite (E := E) m aN check with
    | error e =>
      refine ⟨fun h => (by cases h), ?_⟩
      rintro ⟨h, h'⟩
      cases h
      rw [(checkOnsite_iff (E := E) _ aN check).mpr h'] at hc; cases hc
    | ok u =>
      have := (checkOnsite_iff (E := E) m aN check).mp hc
      constructor
      · intro h; cases h; exact ⟨rfl, this⟩
      · rintro ⟨h, _⟩; cases h; rfl

theorem getHam_ok {ham : ℕ → ℕ → Except E (Mat R)} {check : Bool} {a aN b bN : ℕ} {M : Mat R}
    (h : getHam ham check a aN b bN = .ok M) : ham a b = .ok M := by
  unfold getHam at h
  cases hf : ham a b with
  | error e => simp [hf] at h
  | ok m =>
    simp only [hf] at h
    split at h
    · cases h
    · cases h; rfl

theorem allOrbs_get {r : List (ℕ × ℕ × ℕ)} {n : ℕ} {norb : ℕ → ℕ} (hr : GoodRanges r n norb) {wh : List (ℕ × ℕ)}
    (hs : ∀ h ∈ wh, h.1 < n ∧ h.2 < n) {w a b : ℕ} (hw : wh[w]? = some (a, b)) :
    (allOrbs wh r).1[w]? = some (firstOrb norb a, firstOrb norb b) ∧ (allOrbs wh r).2[w]? = some (norb a, norb b) := by
  have hm := hs _ (List.mem_of_getElem? hw)
  simp [allOrbs, hw, hr.1 a hm.1, hr.1 b hm.2]

/-- What the prepared pointers contain. -/
theorem prepare_spec {norb : ℕ → ℕ} {op : Op R P E} (hreg : Regular norb op) (hu : Unbound op) {junk : ℕ → R} {p : Option P}
    {M : ℕ → ℕ → R} {Hb : BSM R} (h : prepare junk op p = .ok (M, Hb)) {w a b : ℕ} (hw : op.wh[w]? = some (a, b)) :
    ∃ X Y, OnsiteIs op p a X ∧ (op.kind ≠ .density → op.ham a b p = .ok Y) ∧
      (∀ i < norb a, ∀ j < norb a, M w (i * norb a + j) = X.val i j) ∧ (op.check = true → HermOn (norb a) X.val) ∧
      (op.kind ≠ .density → Hb.blockOffsets[w]? = some (firstOrb norb a, firstOrb norb b) ∧
        Hb.blockShapes[w]? = some (norb a, norb b) ∧ ∀ i < norb a, ∀ j < norb b, Hb.get w (i * norb b + j) = Y.val i j) := by
  have hm := List.mem_of_getElem? hw
  obtain ⟨ho1, ho2⟩ := allOrbs_get hreg.ranges hreg.sites hw
  -- onsites
  have on : ∀ M', onsitePtr junk op p = .ok M' → ∃ X, OnsiteIs op p a X ∧
      (∀ i < norb a, ∀ j < norb a, M' w (i * norb a + j) = X.val i j) ∧ (op.check = true → HermOn (norb a) X.val) := by
    intro M' hM'
    unfold onsitePtr at hM'
    unfold OnsiteIs
    cases hon : op.onsite with
    | mat m =>
      simp only [hon] at hM'
      cases hM'
      rcases hreg.mat m hon _ hm with ⟨h1, h2⟩ | ⟨h1, h2, h3⟩
      · exact ⟨m, rfl, fun i hi j hj => flat_at junk m h1 h2 hi hj, fun hc => hermOn_of_check (hreg.herm m hon hc) h1 h2⟩
      · simp only at h1
        refine ⟨m, rfl, fun i hi j hj => ?_, fun hc i hi j hj => ?_⟩
        · have : i = 0 := by omega
          have : j = 0 := by omega
          subst i j
          simp [flat, h2, h3]
        · have : i = 0 := by omega
          have : j = 0 := by omega
          subst i j
          have := hreg.herm m hon hc
          unfold isHermConj at this
          simp only [List.all_eq_true, List.mem_range, decide_eq_true_eq] at this
          exact (this 0 h2 0 h3).symm
    | func f =>
      simp only [hon, hu.1] at hM'
      cases hev : evalOnsites junk op f p with
      | error e => simp [hev] at hM'
      | ok B =>
        simp only [hev] at hM'
        cases hM'
        obtain ⟨_, _, hB, _⟩ := C52_blocks hev
        obtain ⟨o, X, _, _, hX, hv⟩ := hB w a b _ _ hw ho2
        obtain ⟨hf, hr, hc, hh⟩ := getOnsite_iff.mp hX
        have hn := hreg.func f hon _ hm
        simp only at hn
        rw [hn] at hv
        exact ⟨X, hf, fun i hi j hj => (hv i hi j hj).2, fun hck => hermOn_of_check (hh hck) hr hc⟩
  unfold prepare at h
  cases hon : onsitePtr junk op p with
  | error e => simp [hon] at h
  | ok M' =>
    obtain ⟨X, hX1, hX2, hX3⟩ := on M' hon
    simp only [hon] at h
    have ham : op.kind ≠ .density → ∀ B, hamBlocks junk op p = .ok B → ∃ Y, op.ham a b p = .ok Y ∧
        B.blockOffsets[w]? = some (firstOrb norb a, firstOrb norb b) ∧
        B.blockShapes[w]? = some (norb a, norb b) ∧ ∀ i < norb a, ∀ j < norb b, B.get w (i * norb b + j) = Y.val i j := by
      intro _ B hB
      unfold hamBlocks at hB
      simp only [hu.2] at hB
      obtain ⟨h1, h2, h3, _⟩ := C52_blocks hB
      obtain ⟨o, Y, _, _, hY, hv⟩ := h3 w a b _ _ hw ho2
      exact ⟨Y, getHam_ok hY, by rw [h1]; exact ho1, by rw [h2]; exact ho2, fun i hi j hj => (hv i hi j hj).2⟩
    cases hk : op.kind with
    | density =>
      simp only [hk] at h
      cases h
      exact ⟨X, X, hX1, fun hx => absurd rfl hx, hX2, hX3, fun hx => absurd rfl hx⟩
    | current =>
      simp only [hk] at h
      cases hb : hamBlocks junk op p with
      | error e => simp [hb] at h
      | ok B =>
        simp only [hb] at h
        cases h
        obtain ⟨Y, h1, h2⟩ := ham (by simp [hk]) _ hb
        exact ⟨X, Y, hX1, fun _ => h1, hX2, hX3, fun _ => h2⟩
    | source =>
      simp only [hk] at h
      cases hb : hamBlocks junk op p with
      | error e => simp [hb] at h
      | ok B =>
        simp only [hb] at h
        cases h
        obtain ⟨Y, h1, h2⟩ := ham (by simp [hk]) _ hb
        exact ⟨X, Y, hX1, fun _ => h1, hX2, hX3, fun _ => h2⟩

theorem OnsiteIs.unique {op : Op R P E} {p : Option P} {a : ℕ} {M M' : Mat R} (h : OnsiteIs op p a M) (h' : OnsiteIs op p a M') :
    M = M' := by
  unfold OnsiteIs at h h'
  cases ho : op.onsite with
  | mat m => rw [ho] at h h'; exact Eq.trans h (Eq.symm h')
  | func f =>
    rw [ho] at h h'
    simp only at h h'
    rw [h] at h'; cases h'; rfl

/-- The tensor is determined by the operator. -/
theorem IsTensor.unique {norb : ℕ → ℕ} {op : Op R P E} {p : Option P} {Q Q' : ℕ → ℕ → ℕ → R} (h : IsTensor norb op p Q)
    (h' : IsTensor norb op p Q') {w : ℕ} (hw : w < op.wh.length) : Q w = Q' w := by
  obtain ⟨M, H, h1, h2, h3⟩ := h w _ _ (List.getElem?_eq_getElem hw)
  obtain ⟨M', H', h1', h2', h3'⟩ := h' w _ _ (List.getElem?_eq_getElem hw)
  have hM := h1.unique h1'
  subst hM
  rw [h3, h3']
  cases hk : op.kind with
  | density => rfl
  | current =>
    have a1 := h2 (by simp [hk]); have a2 := h2' (by simp [hk])
    rw [a1] at a2; cases a2; rfl
  | source =>
    have a1 := h2 (by simp [hk]); have a2 := h2' (by simp [hk])
    rw [a1] at a2; cases a2; rfl

/-- The loops compute the tensor. -/
theorem prepared {norb : ℕ → ℕ} {op : Op R P E} (hreg : Regular norb op) (hu : Unbound op) {junk : ℕ → R} {p : Option P}
    {M : ℕ → ℕ → R} {Hb : BSM R} (h : prepare junk op p = .ok (M, Hb)) :
    ∃ Q, IsTensor norb op p Q ∧ ∀ w < op.wh.length,
      (∀ bra ket, blockEl op M Hb bra ket w = matEl (firstOrb norb op.nSites) bra (Q w) ket) ∧
      (∀ ket out α, blockAct op M Hb ket out w α = out α + applyTo (firstOrb norb op.nSites) (Q w) ket α) ∧
      (op.check = true → ∀ α β, star (Q w α β) = Q w β α) := by
  have key : ∀ w : ℕ, ∃ Qw : ℕ → ℕ → R, ∀ a b : ℕ, op.wh[w]? = some (a, b) →
      (∃ X Y, OnsiteIs op p a X ∧ (op.kind ≠ .density → op.ham a b p = .ok Y) ∧ Qw = blockQ op.kind norb a b X.val Y.val) ∧
      (∀ bra ket, blockEl op M Hb bra ket w = matEl (firstOrb norb op.nSites) bra Qw ket) ∧
      (∀ ket out α, blockAct op M Hb ket out w α = out α + applyTo (firstOrb norb op.nSites) Qw ket α) ∧
      (op.check = true → ∀ α β, star (Qw α β) = Qw β α) := by
    intro w
    cases hw : op.wh[w]? with
    | none => exact ⟨fun _ _ => 0, fun a b h => by cases h⟩
    | some h' =>
      obtain ⟨a, b⟩ := h'
      obtain ⟨X, Y, h1, h2, h3, h4, h5⟩ := prepare_spec hreg hu h hw
      obtain ⟨ha, hb⟩ := hreg.sites _ (List.mem_of_getElem? hw)
      have hd := hreg.diag
      refine ⟨blockQ op.kind norb a b X.val Y.val, ?_⟩
      intro a' b' e
      cases e
      refine ⟨⟨X, Y, h1, h2, rfl⟩, ?_⟩
      have hg : op.wh.getD w (0, 0) = (a, b) := by rw [List.getD_eq_getElem?_getD, hw]; rfl
      cases hk : op.kind with
      | density =>
        refine ⟨fun bra ket => ?_, fun ket out α => ?_, fun hc α β => ?_⟩
        · simp only [blockEl, hk, hg, hreg.ranges.1 a ha, blockQ]
          exact density_el ha (M w) X.val h3 bra ket
        · simp only [blockAct, hk, hg, hreg.ranges.1 a ha, blockQ]
          exact density_act ha (M w) X.val h3 ket out α
        · exact densityQ_herm (h4 hc) α β
      | current =>
        obtain ⟨q1, q2, q3⟩ := h5 (by simp [hk])
        refine ⟨fun bra ket => ?_, fun ket out α => ?_, fun hc α β => ?_⟩
        · simp only [blockEl, hk, blockQ, List.getD_eq_getElem?_getD, q1, q2, Option.getD_some]
          exact current_el ha hb (M w) _ X.val Y.val h3 q3 bra ket
        · simp only [blockAct, hk, blockQ, List.getD_eq_getElem?_getD, q1, q2, Option.getD_some]
          exact current_act ha hb (M w) _ X.val Y.val h3 q3 ket out α
        · exact currentQ_herm (h4 hc) α β
      | source =>
        obtain ⟨q1, q2, q3⟩ := h5 (by simp [hk])
        have hba : b = a := hd (by simp [hk]) _ (List.mem_of_getElem? hw)
        subst hba
        refine ⟨fun bra ket => ?_, fun ket out α => ?_, fun hc α β => ?_⟩
        · simp only [blockEl, hk, blockQ, List.getD_eq_getElem?_getD, q1, q2, Option.getD_some]
          exact source_el ha (M w) _ X.val Y.val h3 q3 bra ket
        · simp only [blockAct, hk, blockQ, List.getD_eq_getElem?_getD, q1, q2, Option.getD_some]
          exact source_act ha (M w) _ X.val Y.val h3 q3 ket out α
        · exact sourceQ_herm (h4 hc) α β
  choose Q hQ using key
  refine ⟨Q, fun w a b hw => (hQ w a b hw).1, fun w hw => (hQ w _ _ (List.getElem?_eq_getElem hw)).2⟩

/-- Calling an operator in regular circumstances. -/
theorem operator_call {norb : ℕ → ℕ} {op : Op R P E} (hreg : Regular norb op) (hu : Unbound op) {junk : ℕ → R} {p : Option P}
    {bra : List R} {ket : Option (List R)} {v : List R} (h : callVec junk op bra ket p = .ok v) :
    (∃ Q, IsTensor norb op p Q) ∧ ∀ Q, IsTensor norb op p Q →
      v = (List.range op.wh.length).map fun w => matEl (firstOrb norb op.nSites) (fun i => bra.getD i 0) (Q w) (fun i => (ket.getD bra).getD i 0) := by
  unfold callVec at h
  split at h
  · cases h
  · simp only at h
    split at h
    · cases h
    · split at h
      · cases h
      · cases hp : prepare junk op p with
        | error e => simp [hp] at h
        | ok r =>
          obtain ⟨M, Hb⟩ := r
          simp only [hp] at h
          obtain ⟨Q, hQ, hQ'⟩ := prepared hreg hu hp
          refine ⟨⟨Q, hQ⟩, fun Q' hQ2 => ?_⟩
          have e : (List.range op.wh.length).map (blockEl op M Hb (fun i => bra.getD i 0) (fun i => (ket.getD bra).getD i 0)) =
              (List.range op.wh.length).map fun w => matEl (firstOrb norb op.nSites) (fun i => bra.getD i 0) (Q' w)
                (fun i => (ket.getD bra).getD i 0) := by
            refine List.map_congr_left fun w hw => ?_
            have hw' := List.mem_range.mp hw
            rw [(hQ' w hw').1, hQ.unique hQ2 hw']
          rw [e] at h
          split at h
          · next hc =>
            cases h
            simp only [Bool.and_eq_true, Option.isNone_iff_eq_none] at hc
            obtain ⟨hc1, rfl⟩ := hc
            rw [List.map_map]
            refine List.map_congr_left fun w hw => ?_
            have hw' := List.mem_range.mp hw
            simp only [Function.comp_apply, Option.getD_none]
            refine CLike.re_self _ (matEl_real _ _ ?_ _)
            rw [← hQ.unique hQ2 hw']
            exact (hQ' w hw').2.2 hc1
          · cases h; rfl

/-- Acting with an operator in regular circumstances. -/
theorem operator_act {norb : ℕ → ℕ} {op : Op R P E} (hreg : Regular norb op) (hu : Unbound op) {junk : ℕ → R} {p : Option P}
    {ket out : List R} (h : act junk op ket p = .ok out) :
    (∃ Q, IsTensor norb op p Q) ∧ ∀ Q, IsTensor norb op p Q →
      out = (List.range (firstOrb norb op.nSites)).map fun α =>
        ∑ w ∈ range op.wh.length, applyTo (firstOrb norb op.nSites) (Q w) (fun i => ket.getD i 0) α := by
  unfold act at h
  split at h
  · cases h
  · split at h
    · cases h
    · cases hp : prepare junk op p with
      | error e => simp [hp] at h
      | ok r =>
        obtain ⟨M, Hb⟩ := r
        simp only [hp] at h
        cases h
        obtain ⟨Q, hQ, hQ'⟩ := prepared hreg hu hp
        refine ⟨⟨Q, hQ⟩, fun Q' hQ2 => ?_⟩
        rw [hreg.ranges.2]
        refine List.map_congr_left fun α _ => ?_
        rw [foldl_addFun op.wh.length (fun _ => (0 : R)) _
          (fun w α => applyTo (firstOrb norb op.nSites) (Q' w) (fun i => ket.getD i 0) α), zero_add]
        intro o w α hw
        rw [(hQ' w hw).2.1, hQ.unique hQ2 hw]

end
end Kwant.Oper
