import Verif.Solver.LinModel
import Verif.Solver.BlockProps

/-!
C95: the linear system of `_make_linear_sys` is equivalent to the scattering problem.  C94: the variables kept by `smatrix`.
-/

set_option linter.unusedSectionVars false

namespace Kwant.Solver
open Finset Kwant.System

section
variable {R : Type} [CommRing R] [StarRing R] [DecidableEq R]

/-! ### Specification -/

/-- The orbitals of the sites of an interface, in the order of the interface. -/
def orbs (norb : List ℕ) (interface : List ℕ) : List ℕ :=
  interface.flatMap fun i => (List.range (norb.getD i 0)).map fun k => (norb.take i).sum + k

/-- A lead with modes that has a nonzero hopping. -/
def Lead.hasModes (l : Lead R) : Prop := l.isSelfEnergy = false ∧ l.modes.u.rows ≠ 0

instance (l : Lead R) : Decidable l.hasModes := by unfold Lead.hasModes; infer_instance

/-- Number of outgoing and decaying modes. -/
def Lead.nout (l : Lead R) : ℕ := if l.hasModes then l.modes.nout else 0

/-- What a lead contributes to the Schrödinger equation of the scattering region at orbital `α`: the self-energy applied to
`ψ`, or the hopping `V` applied to the wave function in the lead, `U_out` times the amplitudes `s` of the outgoing modes. -/
def leadTerm (norb : List ℕ) (l : Lead R) (ψ : ℕ → R) (s : ℕ → R) (α : ℕ) : R :=
  ∑ p ∈ range (orbs norb l.interface).length, if (orbs norb l.interface)[p]? = some α then
    (if l.isSelfEnergy then ∑ q ∈ range (orbs norb l.interface).length, l.sigma.val p q * ψ ((orbs norb l.interface).getD q 0)
     else ∑ m ∈ range l.nout, (∑ k ∈ range l.modes.sqrtHop.cols, l.modes.sqrtHop.val p k * l.modes.u.val k (l.modes.nprop + m)) * s m)
    else 0

/-- The contribution of the incoming mode `b`. -/
def incoming (norb : List ℕ) (l : Lead R) (b α : ℕ) : R :=
  ∑ p ∈ range (orbs norb l.interface).length, if (orbs norb l.interface)[p]? = some α then
    ∑ k ∈ range l.modes.sqrtHop.cols, l.modes.sqrtHop.val p k * l.modes.u.val k b else 0

/-- `ψ` (on the orbitals of the scattering region) and `s l m` (amplitude of the outgoing or decaying mode `m` of lead `l`) form
the scattering state of the incoming mode `b` of lead `i`: they solve the Schrödinger equation in the scattering region, and
match in each lead: `V† ψ = U_out λ⁻¹ s + U_in λ⁻¹ e_b`. -/
structure IsScattering (sys : SSys R) (energy : R) (i b : ℕ) (ψ : ℕ → R) (s : ℕ → ℕ → R) : Prop where
  region : ∀ α < sys.ham.rows, (∑ β ∈ range sys.ham.cols, sys.ham.val α β * ψ β) - energy * ψ α
    + (∑ l : Fin sys.leads.length, leadTerm sys.norb sys.leads[l] ψ (s l) α)
    + (∑ l : Fin sys.leads.length, if (l : ℕ) = i then incoming sys.norb sys.leads[l] b α else 0) = 0
  matching : ∀ (l : ℕ) (lead : Lead R), sys.leads[l]? = some lead → lead.hasModes → ∀ r < lead.modes.sqrtHop.cols,
    ∑ p ∈ range (orbs sys.norb lead.interface).length, star (lead.modes.sqrtHop.val p r) * ψ ((orbs sys.norb lead.interface).getD p 0)
    = (∑ m ∈ range lead.nout, lead.modes.ulinv.val r (lead.modes.nprop + m) * s l m)
      + if l = i then lead.modes.ulinv.val r b else 0

/-- First variable of lead `l` in the vector of unknowns. -/
def baseVar (numOrb : ℕ) (leads : List (Lead R)) (l : ℕ) : ℕ := numOrb + ((leads.take l).map Lead.nout).sum

/-- Properties of the system and of what `modes` returns: the Hamiltonian is square and belongs to the sites; the interface
consists of sites; there are as many outgoing modes as the hopping has singular vectors. -/
structure SysOk (sys : SSys R) : Prop where
  square : sys.ham.cols = sys.ham.rows
  size : sys.ham.rows = sys.norb.sum
  iface : ∀ l ∈ sys.leads, ∀ i ∈ l.interface, i < sys.norb.length
  modes : ∀ l ∈ sys.leads, l.hasModes → l.modes.nprop ≤ l.modes.u.cols ∧ l.modes.nout = l.modes.sqrtHop.cols

/-! ### Proofs -/

theorem ifaceOrbs_eq {norb interface c : List ℕ} (hi : ∀ i ∈ interface, i < norb.length) (h : ifaceOrbs norb interface = .ok c) :
    c = orbs norb interface := by
  unfold ifaceOrbs at h
  split at h
  · cases h
  · cases h
    unfold orbs
    have : ∀ i ∈ interface, (List.range ((offsets norb).getD (i + 1) 0 - (offsets norb).getD i 0)).map (fun k => (offsets norb).getD i 0 + k) =
        (List.range (norb.getD i 0)).map fun k => (norb.take i).sum + k := by
      intro i hm
      have hlt := hi i hm
      rw [offsets_get norb i (by omega), offsets_get norb (i + 1) (by omega), List.take_add_one, List.getElem?_eq_getElem hlt,
        List.sum_append]
      simp [List.getD_eq_getElem?_getD, List.getElem?_eq_getElem hlt]
    exact List.flatMap_congr this

theorem orbs_lt {norb interface : List ℕ} (hi : ∀ i ∈ interface, i < norb.length) : ∀ α ∈ orbs norb interface, α < norb.sum := by
  intro α hα
  unfold orbs at hα
  obtain ⟨i, hm, h⟩ := List.mem_flatMap.mp hα
  obtain ⟨k, hk, rfl⟩ := List.mem_map.mp h
  have hlt := hi i hm
  have hk' := List.mem_range.mp hk
  have e : norb.sum = (norb.take (i + 1)).sum + (norb.drop (i + 1)).sum := by rw [← List.sum_append, List.take_append_drop]
  rw [List.take_add_one, List.getElem?_eq_getElem hlt, List.sum_append] at e
  rw [List.getD_eq_getElem?_getD, List.getElem?_eq_getElem hlt, Option.getD_some] at hk'
  simp only [Option.toList_some, List.sum_cons, List.sum_nil, Nat.add_zero] at e
  omega

theorem sum_pick (n : ℕ) (o : Option ℕ) (ho : ∀ κ, o = some κ → κ < n) (c : R) (x : ℕ → R) (h : o ≠ none) :
    ∑ κ ∈ range n, (if o = some κ then c else 0) * x κ = c * x (o.getD 0) := by
  cases o with
  | none => exact absurd rfl h
  | some k =>
    rw [Finset.sum_eq_single k]
    · simp
    · intro j _ hj; rw [if_neg (by simpa using Ne.symm hj), zero_mul]
    · intro hx; exact absurd (Finset.mem_range.mpr (ho k rfl)) hx

theorem get_ne_none {l : List ℕ} {p : ℕ} (h : p < l.length) : l[p]? ≠ none := by simp [h]

theorem get_lt {l : List ℕ} {n : ℕ} (hl : ∀ α ∈ l, α < n) (p : ℕ) : ∀ κ, l[p]? = some κ → κ < n :=
  fun κ h => hl κ (List.mem_of_getElem? h)

theorem mulVec_addSigma {norb : List ℕ} {l : Lead R} (lhs : Mat R) (hlt : ∀ α ∈ orbs norb l.interface, α < lhs.cols)
    (hse : l.isSelfEnergy = true) (x s : ℕ → R) (ρ : ℕ) :
    mulVec (addSigma lhs (orbs norb l.interface) l.sigma) x ρ = mulVec lhs x ρ + leadTerm norb l x s ρ := by
  unfold mulVec addSigma leadTerm
  simp only [add_mul, Finset.sum_add_distrib, hse, if_true]
  congr 1
  simp only [Finset.sum_mul]
  rw [Finset.sum_comm]
  refine Finset.sum_congr rfl fun p _ => ?_
  rw [Finset.sum_comm]
  by_cases h : (orbs norb l.interface)[p]? = some ρ
  · rw [if_pos h]
    refine Finset.sum_congr rfl fun q hq => ?_
    simp only [h, true_and]
    rw [sum_pick _ _ (get_lt hlt q) _ _ (get_ne_none (Finset.mem_range.mp hq)), List.getD_eq_getElem?_getD]
  · rw [if_neg h]
    refine Finset.sum_eq_zero fun q _ => Finset.sum_eq_zero fun κ _ => ?_
    rw [if_neg (fun hx => h hx.1), zero_mul]

theorem transfVu_eq (m : Modes R) (c : List ℕ) (α k : ℕ) :
    transfVu m c α k = ∑ p ∈ range c.length, if c[p]? = some α then vu m p k else 0 := by
  unfold transfVu transf
  refine Finset.sum_congr rfl fun p _ => ?_
  split <;> simp

theorem mulVec_extend_top {norb : List ℕ} {l : Lead R} (lhs : Mat R) (hm : l.hasModes) (hsq : lhs.cols = lhs.rows)
    (x : ℕ → R) (ρ : ℕ) (hρ : ρ < lhs.rows) :
    mulVec (extend lhs l.modes (orbs norb l.interface)) x ρ =
      mulVec lhs x ρ + leadTerm norb l x (fun m => x (lhs.rows + m)) ρ := by
  unfold mulVec extend leadTerm
  simp only [if_pos hρ]
  rw [Finset.sum_range_add]
  congr 1
  · refine Finset.sum_congr rfl fun κ hκ => ?_
    rw [if_pos (Finset.mem_range.mp hκ)]
  · have e : ∀ m, (if lhs.cols + m < lhs.cols then lhs.val ρ (lhs.cols + m)
        else transfVu l.modes (orbs norb l.interface) ρ (l.modes.nprop + (lhs.cols + m - lhs.cols))) * x (lhs.cols + m) =
        ∑ p ∈ range (orbs norb l.interface).length, (if (orbs norb l.interface)[p]? = some ρ then vu l.modes p (l.modes.nprop + m) else 0) * x (lhs.rows + m) := by
      intro m
      rw [if_neg (by omega), Nat.add_sub_cancel_left, transfVu_eq, Finset.sum_mul, hsq]
    rw [Finset.sum_congr rfl fun m _ => e m, Finset.sum_comm]
    refine Finset.sum_congr rfl fun p _ => ?_
    rw [Lead.nout, if_pos hm, hm.1]
    split
    · simp only [Bool.false_eq_true, if_false]; rfl
    · simp

theorem mulVec_extend_bottom {norb : List ℕ} {l : Lead R} (lhs : Mat R) (hm : l.hasModes) (hsq : lhs.cols = lhs.rows)
    (hlt : ∀ α ∈ orbs norb l.interface, α < lhs.cols) (x : ℕ → R) (r : ℕ) :
    mulVec (extend lhs l.modes (orbs norb l.interface)) x (lhs.rows + r) =
      (∑ p ∈ range (orbs norb l.interface).length, star (l.modes.sqrtHop.val p r) * x ((orbs norb l.interface).getD p 0))
      - ∑ m ∈ range l.nout, l.modes.ulinv.val r (l.modes.nprop + m) * x (lhs.rows + m) := by
  unfold mulVec extend
  simp only [if_neg (show ¬ lhs.rows + r < lhs.rows by omega), Nat.add_sub_cancel_left]
  rw [Finset.sum_range_add, sub_eq_add_neg, ← Finset.sum_neg_distrib]
  congr 1
  · have e : ∀ κ ∈ range lhs.cols, (if κ < lhs.cols then vSp l.modes (orbs norb l.interface) r κ
        else -l.modes.ulinv.val r (l.modes.nprop + (κ - lhs.cols))) * x κ =
        ∑ p ∈ range (orbs norb l.interface).length, (if (orbs norb l.interface)[p]? = some κ then star (l.modes.sqrtHop.val p r) else 0) * x κ := by
      intro κ hκ
      rw [if_pos (Finset.mem_range.mp hκ), vSp, Finset.sum_mul]
      refine Finset.sum_congr rfl fun p _ => ?_
      unfold transf
      split <;> simp
    rw [Finset.sum_congr rfl e, Finset.sum_comm]
    refine Finset.sum_congr rfl fun p hp => ?_
    rw [sum_pick _ _ (get_lt hlt p) _ _ (get_ne_none (Finset.mem_range.mp hp)), List.getD_eq_getElem?_getD]
  · rw [Lead.nout, if_pos hm]
    refine Finset.sum_congr rfl fun m _ => ?_
    rw [if_neg (by omega), Nat.add_sub_cancel_left, hsq, neg_mul]

theorem leadTerm_high {norb : List ℕ} {l : Lead R} {n : ℕ} (hlt : ∀ α ∈ orbs norb l.interface, α < n) (x s : ℕ → R) {ρ : ℕ} (hρ : n ≤ ρ) :
    leadTerm norb l x s ρ = 0 := by
  unfold leadTerm
  refine Finset.sum_eq_zero fun p _ => ?_
  rw [if_neg]
  intro h
  have := hlt ρ (List.mem_of_getElem? h)
  omega

/-- The list of arrays of variables. -/
def idxSpec : ℕ → List (Lead R) → List (Option (List ℕ))
  | _, [] => []
  | base, l :: ls =>
    (if l.isSelfEnergy then [none] else if l.modes.u.rows = 0 then []
      else [some ((List.range l.modes.nprop).map fun k => base + k)]) ++ idxSpec (base + l.nout) ls

/-- The list of right-hand sides. -/
def rhsSpec (norb inLeads : List ℕ) : ℕ → ℕ → List (Lead R) → List (Rhs R)
  | _, _, [] => []
  | base, n, l :: ls =>
    (if l.hasModes ∧ n ∈ inLeads ∧ l.modes.nprop > 0 then
      .modes base (fun α k => - transfVu l.modes (orbs norb l.interface) α k) ⟨l.modes.ulinv.rows, l.modes.nprop, l.modes.ulinv.val⟩
      else .none) :: rhsSpec norb inLeads (base + l.nout) (n + 1) ls

theorem nout_zero {l : Lead R} (h : ¬ l.hasModes) : l.nout = 0 := by unfold Lead.nout; rw [if_neg h]

theorem leadTerm_zero {norb : List ℕ} {l : Lead R} (h1 : l.isSelfEnergy = false) (h2 : l.nout = 0) (x s : ℕ → R) (ρ : ℕ) :
    leadTerm norb l x s ρ = 0 := by
  unfold leadTerm
  refine Finset.sum_eq_zero fun p _ => ?_
  rw [h2, h1]; simp

/-- One pass of the loop. -/
theorem leadStep_spec {norb inLeads : List ℕ} {st st' : LState R} {n numOrb : ℕ} {l : Lead R}
    (h : leadStep norb inLeads st n l = .ok st') (hsq : st.lhs.cols = st.lhs.rows) (hn : numOrb ≤ st.lhs.rows)
    (hif : ∀ i ∈ l.interface, i < norb.length) (hlt : norb.sum ≤ numOrb) (hmodes : l.hasModes → l.modes.nout = l.modes.sqrtHop.cols) :
    st'.lhs.rows = st.lhs.rows + l.nout ∧ st'.lhs.cols = st'.lhs.rows ∧
    st'.indices = st.indices ++ (if l.isSelfEnergy then [none] else if l.modes.u.rows = 0 then []
      else [some ((List.range l.modes.nprop).map fun k => st.lhs.rows + k)]) ∧
    st'.rhs = st.rhs ++ [if l.hasModes ∧ n ∈ inLeads ∧ l.modes.nprop > 0 then
      .modes st.lhs.rows (fun α k => - transfVu l.modes (orbs norb l.interface) α k) ⟨l.modes.ulinv.rows, l.modes.nprop, l.modes.ulinv.val⟩
      else .none] ∧
    (∀ x, ∀ ρ < st.lhs.rows, mulVec st'.lhs x ρ = mulVec st.lhs x ρ + leadTerm norb l x (fun m => x (st.lhs.rows + m)) ρ) ∧
    (l.hasModes → l.modes.ulinv.rows = l.modes.sqrtHop.cols ∧ ∀ x r, mulVec st'.lhs x (st.lhs.rows + r) =
      (∑ p ∈ range (orbs norb l.interface).length, star (l.modes.sqrtHop.val p r) * x ((orbs norb l.interface).getD p 0))
      - ∑ m ∈ range l.nout, l.modes.ulinv.val r (l.modes.nprop + m) * x (st.lhs.rows + m)) := by
  have hlt' : ∀ α ∈ orbs norb l.interface, α < st.lhs.cols := fun α hα => by have := orbs_lt hif α hα; omega
  unfold leadStep at h
  by_cases hse : l.isSelfEnergy = true
  · have hnm : ¬ l.hasModes := fun hx => by rw [hx.1] at hse; cases hse
    rw [if_pos hse] at h
    split at h
    · cases h
    · split at h
      · cases h
      · next c hc =>
        have := ifaceOrbs_eq hif hc
        subst this
        split at h
        · cases h
        · cases h
          refine ⟨by rw [nout_zero hnm]; rfl, hsq, by rw [if_pos hse], by rw [if_neg (fun hx => hnm hx.1)], ?_, fun hx => absurd hx hnm⟩
          intro x ρ _
          exact mulVec_addSigma st.lhs hlt' hse x _ ρ
  · have hse' : l.isSelfEnergy = false := by simpa using hse
    rw [if_neg hse] at h
    split at h
    · next hu =>
      cases h
      have hnm : ¬ l.hasModes := fun hx => hx.2 hu
      refine ⟨by rw [nout_zero hnm]; rfl, hsq, by rw [if_neg hse, if_pos hu, List.append_nil], by rw [if_neg (fun hx => hnm hx.1)], ?_, fun hx => absurd hx hnm⟩
      intro x ρ _
      rw [leadTerm_zero hse' (nout_zero hnm), add_zero]
    · next hu =>
      have hm : l.hasModes := ⟨hse', hu⟩
      split at h
      · cases h
      · next c hc =>
        have := ifaceOrbs_eq hif hc
        subst this
        split at h
        · cases h
        · split at h
          · cases h
          · next hshape =>
            have hshape : ShapesOk st.lhs l.modes := not_not.mp hshape
            cases h
            have hno : l.nout = l.modes.nout := by rw [Lead.nout, if_pos hm]
            refine ⟨?_, ?_, by rw [if_neg hse, if_neg hu], ?_, fun x ρ hρ => mulVec_extend_top st.lhs hm hsq x ρ hρ,
              fun _ => ⟨hshape.2.1, fun x r => mulVec_extend_bottom st.lhs hm hsq hlt' x r⟩⟩
            · rw [hno, hmodes hm]; rfl
            · show st.lhs.cols + l.modes.nout = st.lhs.rows + l.modes.sqrtHop.cols
              rw [hsq, hmodes hm]
            · by_cases hin : n ∈ inLeads ∧ l.modes.nprop > 0
              · rw [if_pos hin, if_pos ⟨hm, hin⟩]
              · rw [if_neg hin, if_neg (fun hx => hin hx.2)]

/-- The loop over the leads. -/
theorem leadLoop_spec {norb inLeads : List ℕ} {st st' : LState R} {n numOrb : ℕ} {leads : List (Lead R)}
    (h : leadLoop (leadStep norb inLeads) st n leads = .ok st') (hsq : st.lhs.cols = st.lhs.rows) (hn : numOrb ≤ st.lhs.rows)
    (hif : ∀ l ∈ leads, ∀ i ∈ l.interface, i < norb.length) (hlt : norb.sum ≤ numOrb)
    (hmodes : ∀ l ∈ leads, l.hasModes → l.modes.nout = l.modes.sqrtHop.cols) :
    st'.lhs.rows = st.lhs.rows + (leads.map Lead.nout).sum ∧ st'.lhs.cols = st'.lhs.rows ∧
    st'.indices = st.indices ++ idxSpec st.lhs.rows leads ∧
    st'.rhs = st.rhs ++ rhsSpec norb inLeads st.lhs.rows n leads ∧
    (∀ x, ∀ ρ < st.lhs.rows, mulVec st'.lhs x ρ = mulVec st.lhs x ρ +
      ∑ k : Fin leads.length, leadTerm norb leads[k] x (fun m => x (baseVar st.lhs.rows leads k + m)) ρ) ∧
    (∀ (k : ℕ) (l : Lead R), leads[k]? = some l → l.hasModes → l.modes.ulinv.rows = l.modes.sqrtHop.cols ∧
      ∀ x, ∀ r < l.modes.sqrtHop.cols, mulVec st'.lhs x (baseVar st.lhs.rows leads k + r) =
      (∑ p ∈ range (orbs norb l.interface).length, star (l.modes.sqrtHop.val p r) * x ((orbs norb l.interface).getD p 0))
      - ∑ m ∈ range l.nout, l.modes.ulinv.val r (l.modes.nprop + m) * x (baseVar st.lhs.rows leads k + m)) := by
  induction leads generalizing st n with
  | nil =>
    cases h
    refine ⟨by simp, hsq, by simp [idxSpec], by simp [rhsSpec], fun x ρ _ => by simp, fun k l hk => by simp at hk⟩
  | cons l ls ih =>
    simp only [leadLoop] at h
    split at h
    · cases h
    · next st1 h1 =>
      obtain ⟨a1, a2, a3, a4, a5, a6⟩ := leadStep_spec h1 hsq hn (hif l (by simp)) hlt (hmodes l (by simp))
      obtain ⟨b1, b2, b3, b4, b5, b6⟩ := ih h a2 (by omega) (fun l' hl' => hif l' (List.mem_cons_of_mem _ hl'))
        (fun l' hl' => hmodes l' (List.mem_cons_of_mem _ hl'))
      have hbase : ∀ k, baseVar st1.lhs.rows ls k = baseVar st.lhs.rows (l :: ls) (k + 1) := by
        intro k
        unfold baseVar
        rw [a1, List.take_succ_cons, List.map_cons, List.sum_cons]; omega
      have hbase0 : baseVar st.lhs.rows (l :: ls) 0 = st.lhs.rows := by simp [baseVar]
      refine ⟨by rw [b1, a1, List.map_cons, List.sum_cons]; omega, b2, ?_, ?_, ?_, ?_⟩
      · rw [b3, a3, a1, idxSpec, List.append_assoc]
      · rw [b4, a4, a1, rhsSpec, List.append_assoc]; rfl
      · intro x ρ hρ
        have e := Fin.sum_univ_succ (n := ls.length) (fun k : Fin (ls.length + 1) =>
          leadTerm norb (l :: ls)[k] x (fun m => x (baseVar st.lhs.rows (l :: ls) k + m)) ρ)
        have e' : (∑ k : Fin (l :: ls).length, leadTerm norb (l :: ls)[k] x (fun m => x (baseVar st.lhs.rows (l :: ls) k + m)) ρ) = _ := e
        rw [b5 x ρ (by omega), a5 x ρ hρ, e', add_assoc]
        congr 1
        have e0 : leadTerm norb (l :: ls)[(0 : Fin (ls.length + 1))] x
            (fun m => x (baseVar st.lhs.rows (l :: ls) ((0 : Fin (ls.length + 1)) : ℕ) + m)) ρ =
            leadTerm norb l x (fun m => x (st.lhs.rows + m)) ρ := by
          have : (((0 : Fin (ls.length + 1)) : ℕ)) = 0 := rfl
          rw [this, hbase0]; rfl
        rw [e0]
        congr 1
        refine Finset.sum_congr rfl fun k _ => ?_
        rw [hbase]; rfl
      · intro k l' hk hm
        cases k with
        | zero =>
          simp only [List.getElem?_cons_zero, Option.some.injEq] at hk
          subst hk
          obtain ⟨c1, c2⟩ := a6 hm
          refine ⟨c1, fun x r hr => ?_⟩
          have hno : l.nout = l.modes.sqrtHop.cols := by rw [Lead.nout, if_pos hm, hmodes l (by simp) hm]
          have hz : ∑ k : Fin ls.length, leadTerm norb ls[k] x (fun m => x (baseVar st1.lhs.rows ls k + m)) (st.lhs.rows + r) = 0 := by
            refine Finset.sum_eq_zero fun k _ => ?_
            refine leadTerm_high (n := numOrb) (fun α hα => ?_) _ _ (by omega)
            have := orbs_lt (hif ls[k] (List.mem_cons_of_mem _ (List.getElem_mem _))) α hα
            omega
          rw [hbase0, b5 x _ (by omega), c2, hz, add_zero]
        | succ k =>
          rw [List.getElem?_cons_succ] at hk
          obtain ⟨c1, c2⟩ := b6 k l' hk hm
          refine ⟨c1, fun x r hr => ?_⟩
          have := c2 x r hr
          rw [hbase] at this
          exact this

theorem rhsSpec_get (norb inLeads : List ℕ) (base n : ℕ) (leads : List (Lead R)) (k : ℕ) :
    (rhsSpec norb inLeads base n leads)[k]? = leads[k]?.map fun l =>
      if l.hasModes ∧ n + k ∈ inLeads ∧ l.modes.nprop > 0 then
      .modes (baseVar base leads k) (fun α k => - transfVu l.modes (orbs norb l.interface) α k) ⟨l.modes.ulinv.rows, l.modes.nprop, l.modes.ulinv.val⟩
      else .none := by
  induction leads generalizing base n k with
  | nil => simp [rhsSpec]
  | cons l ls ih =>
    cases k with
    | zero => simp [rhsSpec, baseVar]
    | succ k =>
      rw [rhsSpec, List.getElem?_cons_succ, List.getElem?_cons_succ, ih, show n + 1 + k = n + (k + 1) by omega]
      have : baseVar (base + l.nout) ls k = baseVar base (l :: ls) (k + 1) := by
        unfold baseVar
        rw [List.take_succ_cons, List.map_cons, List.sum_cons]; omega
      rw [this]

/-- Every variable after those of the scattering region belongs to a mode. -/
theorem var_cases (base : ℕ) (leads : List (Lead R)) (ρ : ℕ) (h1 : base ≤ ρ) (h2 : ρ < base + (leads.map Lead.nout).sum) :
    ∃ k l r, leads[k]? = some l ∧ r < l.nout ∧ ρ = baseVar base leads k + r := by
  induction leads generalizing base with
  | nil => simp at h2; omega
  | cons l ls ih =>
    rw [List.map_cons, List.sum_cons] at h2
    by_cases h : ρ < base + l.nout
    · exact ⟨0, l, ρ - base, rfl, by omega, by simp [baseVar]; omega⟩
    · obtain ⟨k, l', r, a, b, c⟩ := ih (base + l.nout) (by omega) (by omega)
      refine ⟨k + 1, l', r, a, b, ?_⟩
      rw [c]
      unfold baseVar
      rw [List.take_succ_cons, List.map_cons, List.sum_cons]; omega

theorem baseVar_lt (base : ℕ) (leads : List (Lead R)) (k k' : ℕ) (l : Lead R) (h : leads[k]? = some l) (hk : k < k') :
    baseVar base leads k + l.nout ≤ baseVar base leads k' := by
  unfold baseVar
  obtain ⟨d, rfl⟩ : ∃ d, k' = k + 1 + d := ⟨k' - k - 1, by omega⟩
  rw [List.take_add, List.take_add_one, h, List.map_append, List.map_append, List.sum_append, List.sum_append]
  simp
  omega

theorem baseVar_total (base : ℕ) (leads : List (Lead R)) (k : ℕ) (l : Lead R) (h : leads[k]? = some l) :
    baseVar base leads k + l.nout ≤ base + (leads.map Lead.nout).sum := by
  have := baseVar_lt base leads k leads.length l h (by
    by_contra hx; rw [List.getElem?_eq_none (by omega)] at h; cases h)
  unfold baseVar at this ⊢
  rw [List.take_length] at this
  exact this

theorem mulVec_ham (H : Mat R) (hsq : H.cols = H.rows) (E : R) (x : ℕ → R) (α : ℕ) (h : α < H.rows) :
    mulVec (hamMinusE H E) x α = (∑ β ∈ range H.cols, H.val α β * x β) - E * x α := by
  unfold mulVec hamMinusE
  simp only [sub_mul, Finset.sum_sub_distrib]
  congr 1
  rw [Finset.sum_eq_single α]
  · simp
  · intro b _ hb; rw [if_neg (Ne.symm hb), zero_mul]
  · intro hx; exact absurd (Finset.mem_range.mpr (by omega)) hx

theorem transfVu_high {norb : List ℕ} {l : Lead R} {n : ℕ} (hlt : ∀ α ∈ orbs norb l.interface, α < n) {ρ : ℕ} (hρ : n ≤ ρ) (k : ℕ) :
    transfVu l.modes (orbs norb l.interface) ρ k = 0 := by
  rw [transfVu_eq]
  refine Finset.sum_eq_zero fun p _ => ?_
  rw [if_neg]
  intro h
  have := hlt ρ (List.mem_of_getElem? h)
  omega

theorem incoming_eq (norb : List ℕ) (l : Lead R) (b α : ℕ) :
    incoming norb l b α = transfVu l.modes (orbs norb l.interface) α b := by rw [transfVu_eq]; rfl

/-- What `_make_linear_sys` returns with `realspace=False`, in terms of the specification. -/
theorem makeLinearSys_spec {sys : SSys R} {inLeads : List ℕ} {E : R} {check : Bool} {ls : LinearSys R} (hok : SysOk sys)
    (h : makeLinearSys sys inLeads E check false = .ok ls) :
    ls.numOrb = sys.ham.rows ∧ ls.lhs.rows = sys.ham.rows + (sys.leads.map Lead.nout).sum ∧ ls.lhs.cols = ls.lhs.rows ∧
    ls.indices = idxSpec sys.ham.rows sys.leads ∧
    ls.rhs = (rhsSpec sys.norb inLeads sys.ham.rows 0 sys.leads).map (resize ls.lhs.rows) ∧
    (∀ x, ∀ ρ < sys.ham.rows, mulVec ls.lhs x ρ = (∑ β ∈ range sys.ham.cols, sys.ham.val ρ β * x β) - E * x ρ +
      ∑ k : Fin sys.leads.length, leadTerm sys.norb sys.leads[k] x (fun m => x (baseVar sys.ham.rows sys.leads k + m)) ρ) ∧
    (∀ (k : ℕ) (l : Lead R), sys.leads[k]? = some l → l.hasModes → l.modes.ulinv.rows = l.modes.sqrtHop.cols ∧
      ∀ x, ∀ r < l.modes.sqrtHop.cols, mulVec ls.lhs x (baseVar sys.ham.rows sys.leads k + r) =
      (∑ p ∈ range (orbs sys.norb l.interface).length, star (l.modes.sqrtHop.val p r) * x ((orbs sys.norb l.interface).getD p 0))
      - ∑ m ∈ range l.nout, l.modes.ulinv.val r (l.modes.nprop + m) * x (baseVar sys.ham.rows sys.leads k + m)) := by
  unfold makeLinearSys at h
  split at h
  · cases h
  · split at h
    · cases h
    · split at h
      · cases h
      · next st hst =>
        cases h
        simp only [Bool.false_eq_true, if_false] at hst
        obtain ⟨a1, a2, a3, a4, a5, a6⟩ := leadLoop_spec (numOrb := sys.ham.rows) hst hok.square (le_refl _) hok.iface
          (le_of_eq hok.size.symm) (fun l hl hm => (hok.modes l hl hm).2)
        refine ⟨rfl, a1, a2, a3, by rw [a4]; rfl, ?_, a6⟩
        intro x ρ hρ
        rw [← mulVec_ham sys.ham hok.square E x ρ hρ]
        exact a5 x ρ hρ

/-- **C95.** For the incoming mode `b` of the requested lead `i`, a vector of unknowns solves the linear system with column `b` of
the `i`-th right-hand side if and only if it is the scattering state of that mode. -/
theorem C95_scattering {sys : SSys R} {inLeads : List ℕ} {E : R} {check : Bool} {ls : LinearSys R} (hok : SysOk sys)
    (h : makeLinearSys sys inLeads E check false = .ok ls) {i b : ℕ} {lead : Lead R} (hi : i ∈ inLeads) (hl : sys.leads[i]? = some lead)
    (hm : lead.hasModes) (hb : b < lead.modes.nprop) :
    ∃ B, ls.rhs[i]? = some B ∧ B.rows = ls.lhs.rows ∧ B.cols = lead.modes.nprop ∧
      ∀ x : ℕ → R, (∀ ρ < ls.lhs.rows, mulVec ls.lhs x ρ = B.val ρ b) ↔
        IsScattering sys E i b x (fun l m => x (baseVar sys.ham.rows sys.leads l + m)) := by
  obtain ⟨a1, a2, a3, a4, a5, a6, a7⟩ := makeLinearSys_spec hok h
  have hlm : lead ∈ sys.leads := List.mem_of_getElem? hl
  have hul := (a7 i lead hl hm).1
  have hlt : ∀ α ∈ orbs sys.norb lead.interface, α < sys.ham.rows := fun α hα => by
    have := orbs_lt (hok.iface lead hlm) α hα
    have := hok.size
    omega
  refine ⟨resize ls.lhs.rows (.modes (baseVar sys.ham.rows sys.leads i) (fun α k => - transfVu lead.modes (orbs sys.norb lead.interface) α k)
      ⟨lead.modes.ulinv.rows, lead.modes.nprop, lead.modes.ulinv.val⟩), ?_, rfl, rfl, ?_⟩
  · rw [a5, List.getElem?_map, rhsSpec_get, hl, Option.map_some, Option.map_some, if_pos ⟨hm, by simpa using hi, by omega⟩]
  have hnout : ∀ (k : ℕ) (l : Lead R), sys.leads[k]? = some l → l.hasModes → l.nout = l.modes.sqrtHop.cols := fun k l hk hx => by
    rw [Lead.nout, if_pos hx, (hok.modes l (List.mem_of_getElem? hk) hx).2]
  -- the right-hand side in the scattering region
  have htop : ∀ ρ < sys.ham.rows, (resize ls.lhs.rows (.modes (baseVar sys.ham.rows sys.leads i) (fun α k => - transfVu lead.modes (orbs sys.norb lead.interface) α k)
      ⟨lead.modes.ulinv.rows, lead.modes.nprop, lead.modes.ulinv.val⟩)).val ρ b = - incoming sys.norb lead b ρ := by
    intro ρ hρ
    unfold resize
    have : ρ < baseVar sys.ham.rows sys.leads i := by unfold baseVar; omega
    simp only [if_pos this]
    rw [incoming_eq]
  have hbot : ∀ (k : ℕ) (l : Lead R), sys.leads[k]? = some l → l.hasModes → ∀ r < l.modes.sqrtHop.cols,
      (resize ls.lhs.rows (.modes (baseVar sys.ham.rows sys.leads i) (fun α k => - transfVu lead.modes (orbs sys.norb lead.interface) α k)
      ⟨lead.modes.ulinv.rows, lead.modes.nprop, lead.modes.ulinv.val⟩)).val (baseVar sys.ham.rows sys.leads k + r) b =
        if k = i then l.modes.ulinv.val r b else 0 := by
    intro k l hk hmk r hr
    have hkn := hnout k l hk hmk
    unfold resize
    rcases Nat.lt_trichotomy k i with hki | hki | hki
    · have := baseVar_lt sys.ham.rows sys.leads k i l hk hki
      simp only [if_pos (show baseVar sys.ham.rows sys.leads k + r < baseVar sys.ham.rows sys.leads i by omega), if_neg (Nat.ne_of_lt hki)]
      rw [transfVu_high hlt (by unfold baseVar; omega), neg_zero]
    · subst hki
      rw [hl] at hk
      obtain rfl := Option.some.inj hk
      simp only [if_neg (show ¬ baseVar sys.ham.rows sys.leads k + r < baseVar sys.ham.rows sys.leads k by omega), if_true, hul,
        if_pos (show baseVar sys.ham.rows sys.leads k + r < baseVar sys.ham.rows sys.leads k + lead.modes.sqrtHop.cols by omega),
        Nat.add_sub_cancel_left]
    · have := baseVar_lt sys.ham.rows sys.leads i k lead hl hki
      have hin := hnout i lead hl hm
      simp only [if_neg (show ¬ baseVar sys.ham.rows sys.leads k + r < baseVar sys.ham.rows sys.leads i by omega), hul,
        if_neg (show ¬ baseVar sys.ham.rows sys.leads k + r < baseVar sys.ham.rows sys.leads i + lead.modes.sqrtHop.cols by omega),
        if_neg (Nat.ne_of_gt hki)]
  have hsumIn : ∀ α, (∑ l : Fin sys.leads.length, if (l : ℕ) = i then incoming sys.norb sys.leads[l] b α else 0) = incoming sys.norb lead b α := by
    intro α
    have hil : i < sys.leads.length := by
      by_contra hx; rw [List.getElem?_eq_none (by omega)] at hl; cases hl
    rw [Finset.sum_eq_single (⟨i, hil⟩ : Fin sys.leads.length)]
    · rw [if_pos rfl]
      congr 1
      rw [List.getElem?_eq_getElem hil] at hl
      exact Option.some.inj hl
    · intro k _ hk
      rw [if_neg (fun hx => hk (Fin.ext hx))]
    · intro hx; exact absurd (Finset.mem_univ _) hx
  intro x
  constructor
  · intro hx
    constructor
    · intro α hα
      have e := hx α (by omega)
      rw [a6 x α hα, htop α hα] at e
      rw [hsumIn, e, neg_add_cancel]
    · intro k l hk hmk r hr
      have hkn := hnout k l hk hmk
      have := baseVar_total sys.ham.rows sys.leads k l hk
      have e := hx (baseVar sys.ham.rows sys.leads k + r) (by omega)
      rw [(a7 k l hk hmk).2 x r hr, hbot k l hk hmk r hr] at e
      rw [← e]; ring
  · intro hs ρ hρ
    by_cases hα : ρ < sys.ham.rows
    · have e := hs.region ρ hα
      rw [hsumIn] at e
      rw [a6 x ρ hα, htop ρ hα]
      exact eq_neg_of_add_eq_zero_left e
    · obtain ⟨k, l, r, hk, hr, rfl⟩ := var_cases sys.ham.rows sys.leads ρ (by omega) (by omega)
      have hmk : l.hasModes := by
        by_contra hx; rw [nout_zero hx] at hr; omega
      have hkn := hnout k l hk hmk
      rw [(a7 k l hk hmk).2 x r (by omega), hbot k l hk hmk r (by omega), hs.matching k l hk hmk r (by omega)]
      ring

/-- **C95**: the other blocks of the right-hand side are empty, and there is one block per lead. -/
theorem C95_other_blocks {sys : SSys R} {inLeads : List ℕ} {E : R} {check : Bool} {ls : LinearSys R} (hok : SysOk sys)
    (h : makeLinearSys sys inLeads E check false = .ok ls) :
    ls.rhs.length = sys.leads.length ∧ ∀ (i : ℕ) (lead : Lead R), sys.leads[i]? = some lead → ∃ B, ls.rhs[i]? = some B ∧ B.rows = ls.lhs.rows ∧
      B.cols = if i ∈ inLeads ∧ lead.hasModes then lead.modes.nprop else 0 := by
  obtain ⟨a1, a2, a3, a4, a5, a6, a7⟩ := makeLinearSys_spec hok h
  have hlen : ∀ (base n : ℕ) (leads : List (Lead R)), (rhsSpec sys.norb inLeads base n leads).length = leads.length := by
    intro base n leads
    induction leads generalizing base n with
    | nil => rfl
    | cons l ls ih => simp [rhsSpec, ih]
  refine ⟨by rw [a5, List.length_map, hlen], fun i lead hl => ?_⟩
  rw [a5, List.getElem?_map, rhsSpec_get, hl, Option.map_some, Option.map_some]
  refine ⟨_, rfl, ?_, ?_⟩
  · split <;> rfl
  · rw [Nat.zero_add]
    by_cases hx : i ∈ inLeads ∧ lead.hasModes
    · rw [if_pos hx]
      by_cases hp : lead.modes.nprop > 0
      · rw [if_pos ⟨hx.2, hx.1, hp⟩]; rfl
      · rw [if_neg (fun hy => hp hy.2.2)]; show 0 = _; omega
    · rw [if_neg hx, if_neg (fun hy => hx ⟨hy.2.1, hy.1⟩)]; rfl

/-- Columns of the concatenated right-hand sides. -/
theorem rhsCol_get (l : List (Mat R)) (i c : ℕ) (B : Mat R) (hi : l[i]? = some B) (hc : c < B.cols) (α : ℕ) :
    rhsCol l (((l.take i).map Mat.cols).sum + c) α = B.val α c := by
  induction l generalizing i with
  | nil => simp at hi
  | cons a l ih =>
    cases i with
    | zero =>
      simp only [List.getElem?_cons_zero, Option.some.injEq] at hi
      subst hi
      simp [rhsCol, hc]
    | succ i =>
      rw [List.getElem?_cons_succ] at hi
      rw [List.take_succ_cons, List.map_cons, List.sum_cons, rhsCol, if_neg (by omega), ← ih i hi]
      congr 1
      omega

end
end Kwant.Solver
