import Verif.Solver.Kept
import Mathlib.Data.Complex.BigOperators
import Mathlib.LinearAlgebra.Matrix.NonsingularInverse
import Mathlib.Tactic.LinearCombination

/-!
C112: the scattering matrix that `smatrix` (solvers/common.py) computes is unitary, if the modes of the leads carry unit current.
-/

set_option linter.unusedSectionVars false

namespace Kwant.Solver
open Finset Kwant.System Complex

/-! ### Specification -/

/-- What `physics.modes` promises about the currents of the modes (see C113): the incoming propagating modes, which come first, carry unit current towards the
scattering region, the outgoing ones unit current away from it, the evanescent ones no current, and no current flows between different modes. -/
structure CurrentOk (m : Modes ℂ) : Prop where
  count : 2 * m.nprop ≤ m.u.cols
  current : ∀ a < m.u.cols, ∀ b < m.u.cols, I * ∑ r ∈ range m.sqrtHop.cols, (star (m.ulinv.val r a) * m.u.val r b - star (m.u.val r a) * m.ulinv.val r b) =
    if a = b then (if a < m.nprop then -1 else if a < 2 * m.nprop then 1 else 0) else 0

/-- The Hamiltonian is Hermitian. -/
def HermHam (H : Mat ℂ) : Prop := ∀ α < H.rows, ∀ β < H.rows, star (H.val α β) = H.val β α

/-- `⟨ψ|Γ|ψ'⟩` for the leads that are given by a self-energy. -/
noncomputable def absorbed (sys : SSys ℂ) (ψ ψ' : ℕ → ℂ) : ℂ := ∑ l : Fin sys.leads.length, if sys.leads[l].isSelfEnergy then
    ∑ p ∈ range (orbs sys.norb sys.leads[l].interface).length, ∑ q ∈ range (orbs sys.norb sys.leads[l].interface).length,
      star (ψ ((orbs sys.norb sys.leads[l].interface).getD p 0)) * (I * (sys.leads[l].sigma.val p q - star (sys.leads[l].sigma.val q p))) *
        ψ' ((orbs sys.norb sys.leads[l].interface).getD q 0) else 0

/-! ### One lead -/

/-- The amplitudes of all modes of a lead: incoming, outgoing, evanescent. -/
noncomputable def coef (lead : Lead ℂ) (own : Prop) [Decidable own] (b : ℕ) (s : ℕ → ℂ) (k : ℕ) : ℂ :=
  if k < lead.modes.nprop then (if own ∧ k = b then 1 else 0) else s (k - lead.modes.nprop)

theorem sum_coef {lead : Lead ℂ} (hm : lead.hasModes) (hn : lead.modes.nprop ≤ lead.modes.u.cols) (own : Prop) [Decidable own] (b : ℕ)
    (hb : own → b < lead.modes.nprop) (s f : ℕ → ℂ) :
    ∑ k ∈ range lead.modes.u.cols, f k * coef lead own b s k =
      (∑ m ∈ range lead.nout, f (lead.modes.nprop + m) * s m) + if own then f b else 0 := by
  have hc : lead.modes.u.cols = lead.modes.nprop + lead.nout := by
    rw [Lead.nout, if_pos hm, Modes.nout]; omega
  rw [hc, Finset.sum_range_add, add_comm]
  congr 1
  · refine Finset.sum_congr rfl fun m _ => ?_
    rw [coef, if_neg (by omega), Nat.add_sub_cancel_left]
  · by_cases ho : own
    · rw [if_pos ho, Finset.sum_eq_single b]
      · rw [coef, if_pos (hb ho), if_pos ⟨ho, rfl⟩, mul_one]
      · intro k hk hkb
        rw [coef, if_pos (Finset.mem_range.mp hk), if_neg (fun h => hkb h.2), mul_zero]
      · intro h
        exact absurd (Finset.mem_range.mpr (hb ho)) h
    · rw [if_neg ho]
      refine Finset.sum_eq_zero fun k hk => ?_
      rw [coef, if_pos (Finset.mem_range.mp hk), if_neg (fun h => ho h.1), mul_zero]

theorem sum_orb {N : ℕ} (l : List ℕ) (hl : ∀ α ∈ l, α < N) (φ : ℕ → ℂ) (f : ℕ → ℂ) :
    ∑ α ∈ range N, φ α * ∑ p ∈ range l.length, (if l[p]? = some α then f p else 0) = ∑ p ∈ range l.length, φ (l.getD p 0) * f p := by
  simp only [Finset.mul_sum]
  rw [Finset.sum_comm]
  refine Finset.sum_congr rfl fun p hp => ?_
  have hp' := Finset.mem_range.mp hp
  have e : l[p]? = some (l[p]) := List.getElem?_eq_getElem hp'
  have e2 : l.getD p 0 = l[p] := by rw [List.getD_eq_getElem?_getD, e, Option.getD_some]
  rw [Finset.sum_eq_single (l[p])]
  · rw [e, if_pos rfl, e2]
  · intro β _ hβ
    rw [e, if_neg (fun h => hβ (Option.some.inj h).symm), mul_zero]
  · intro h
    exact absurd (Finset.mem_range.mpr (hl _ (List.getElem_mem _))) h

/-- What the modes of a lead contribute to `⟨φ|H|ψ⟩`. -/
theorem pair_lead {norb : List ℕ} {lead : Lead ℂ} {N : ℕ} (hl : ∀ α ∈ orbs norb lead.interface, α < N) (hm : lead.hasModes)
    (hn : lead.modes.nprop ≤ lead.modes.u.cols) (own : Prop) [Decidable own] (b : ℕ) (hb : own → b < lead.modes.nprop) (φ ψ s : ℕ → ℂ) :
    ∑ α ∈ range N, star (φ α) * (leadTerm norb lead ψ s α + if own then incoming norb lead b α else 0) =
      ∑ r ∈ range lead.modes.sqrtHop.cols,
        star (∑ p ∈ range (orbs norb lead.interface).length, star (lead.modes.sqrtHop.val p r) * φ ((orbs norb lead.interface).getD p 0)) *
        ∑ k ∈ range lead.modes.u.cols, lead.modes.u.val r k * coef lead own b s k := by
  have h1 : ∀ α, leadTerm norb lead ψ s α + (if own then incoming norb lead b α else 0) = ∑ p ∈ range (orbs norb lead.interface).length,
      if (orbs norb lead.interface)[p]? = some α then
        ∑ k ∈ range lead.modes.u.cols, (∑ r ∈ range lead.modes.sqrtHop.cols, lead.modes.sqrtHop.val p r * lead.modes.u.val r k) * coef lead own b s k else 0 := by
    intro α
    rw [leadTerm, incoming]
    simp only [hm.1, Bool.false_eq_true, if_false]
    by_cases ho : own
    · rw [if_pos ho, ← Finset.sum_add_distrib]
      refine Finset.sum_congr rfl fun p _ => ?_
      by_cases hp : (orbs norb lead.interface)[p]? = some α
      · rw [if_pos hp, if_pos hp, if_pos hp, sum_coef hm hn own b hb, if_pos ho]
      · rw [if_neg hp, if_neg hp, if_neg hp, add_zero]
    · rw [if_neg ho, add_zero]
      refine Finset.sum_congr rfl fun p _ => ?_
      by_cases hp : (orbs norb lead.interface)[p]? = some α
      · rw [if_pos hp, if_pos hp, sum_coef hm hn own b hb, if_neg ho, add_zero]
      · rw [if_neg hp, if_neg hp]
  simp only [h1]
  rw [sum_orb _ hl (fun α => star (φ α))]
  have h2 : ∀ p, ∑ k ∈ range lead.modes.u.cols, (∑ r ∈ range lead.modes.sqrtHop.cols, lead.modes.sqrtHop.val p r * lead.modes.u.val r k) * coef lead own b s k =
      ∑ r ∈ range lead.modes.sqrtHop.cols, lead.modes.sqrtHop.val p r * ∑ k ∈ range lead.modes.u.cols, lead.modes.u.val r k * coef lead own b s k := by
    intro p
    simp only [Finset.sum_mul, Finset.mul_sum]
    rw [Finset.sum_comm]
    refine Finset.sum_congr rfl fun r _ => Finset.sum_congr rfl fun k _ => ?_
    ring
  simp only [h2, star_sum, star_mul, star_star, Finset.mul_sum (range lead.modes.sqrtHop.cols), Finset.sum_mul (range (orbs norb lead.interface).length)]
  rw [Finset.sum_comm]
  refine Finset.sum_congr rfl fun r _ => Finset.sum_congr rfl fun p _ => ?_
  ring

theorem pair_sigma {norb : List ℕ} {lead : Lead ℂ} {N : ℕ} (hl : ∀ α ∈ orbs norb lead.interface, α < N) (hse : lead.isSelfEnergy = true) (φ ψ s : ℕ → ℂ) :
    ∑ α ∈ range N, star (φ α) * leadTerm norb lead ψ s α = ∑ p ∈ range (orbs norb lead.interface).length, ∑ q ∈ range (orbs norb lead.interface).length,
      star (φ ((orbs norb lead.interface).getD p 0)) * lead.sigma.val p q * ψ ((orbs norb lead.interface).getD q 0) := by
  simp only [leadTerm, hse, if_true]
  rw [sum_orb _ hl (fun α => star (φ α))]
  simp only [Finset.mul_sum, mul_assoc]

theorem leadTerm_dead {norb : List ℕ} {lead : Lead ℂ} (hse : lead.isSelfEnergy = false) (hm : ¬lead.hasModes) (ψ s : ℕ → ℂ) (α : ℕ) : leadTerm norb lead ψ s α = 0 := by
  have hno : lead.nout = 0 := by rw [Lead.nout, if_neg hm]
  simp [leadTerm, hse, hno]

/-- The current through a cross section of a lead. -/
theorem lead_current {lead : Lead ℂ} (hm : lead.hasModes) (hc : CurrentOk lead.modes) (own own' : Prop) [Decidable own] [Decidable own'] {b b' : ℕ}
    (hb : own → b < lead.modes.nprop) (hb' : own' → b' < lead.modes.nprop) (s s' : ℕ → ℂ) :
    I * ∑ r ∈ range lead.modes.sqrtHop.cols,
      (star (∑ k ∈ range lead.modes.u.cols, lead.modes.ulinv.val r k * coef lead own b s k) * ∑ k ∈ range lead.modes.u.cols, lead.modes.u.val r k * coef lead own' b' s' k
      - star (∑ k ∈ range lead.modes.u.cols, lead.modes.u.val r k * coef lead own b s k) * ∑ k ∈ range lead.modes.u.cols, lead.modes.ulinv.val r k * coef lead own' b' s' k) =
    (∑ m ∈ range lead.modes.nprop, star (s m) * s' m) - if own ∧ own' ∧ b = b' then 1 else 0 := by
  have hcount := hc.count
  have h1 : I * ∑ r ∈ range lead.modes.sqrtHop.cols,
      (star (∑ k ∈ range lead.modes.u.cols, lead.modes.ulinv.val r k * coef lead own b s k) * ∑ k ∈ range lead.modes.u.cols, lead.modes.u.val r k * coef lead own' b' s' k
      - star (∑ k ∈ range lead.modes.u.cols, lead.modes.u.val r k * coef lead own b s k) * ∑ k ∈ range lead.modes.u.cols, lead.modes.ulinv.val r k * coef lead own' b' s' k) =
      ∑ k ∈ range lead.modes.u.cols, ∑ k' ∈ range lead.modes.u.cols, star (coef lead own b s k) * coef lead own' b' s' k' *
        (I * ∑ r ∈ range lead.modes.sqrtHop.cols, (star (lead.modes.ulinv.val r k) * lead.modes.u.val r k' - star (lead.modes.u.val r k) * lead.modes.ulinv.val r k')) := by
    have h2 : ∀ r, star (∑ k ∈ range lead.modes.u.cols, lead.modes.ulinv.val r k * coef lead own b s k) * ∑ k ∈ range lead.modes.u.cols, lead.modes.u.val r k * coef lead own' b' s' k
        - star (∑ k ∈ range lead.modes.u.cols, lead.modes.u.val r k * coef lead own b s k) * ∑ k ∈ range lead.modes.u.cols, lead.modes.ulinv.val r k * coef lead own' b' s' k =
        ∑ k ∈ range lead.modes.u.cols, ∑ k' ∈ range lead.modes.u.cols, star (coef lead own b s k) * coef lead own' b' s' k' *
          (star (lead.modes.ulinv.val r k) * lead.modes.u.val r k' - star (lead.modes.u.val r k) * lead.modes.ulinv.val r k') := by
      intro r
      simp only [star_sum, star_mul, Finset.sum_mul_sum]
      rw [← Finset.sum_sub_distrib]
      refine Finset.sum_congr rfl fun k _ => ?_
      rw [← Finset.sum_sub_distrib]
      refine Finset.sum_congr rfl fun k' _ => ?_
      ring
    simp only [h2]
    rw [Finset.sum_comm, Finset.mul_sum]
    refine Finset.sum_congr rfl fun k _ => ?_
    rw [Finset.sum_comm, Finset.mul_sum]
    refine Finset.sum_congr rfl fun k' _ => ?_
    rw [← Finset.mul_sum]
    ring
  rw [h1]
  have h3 : ∀ k ∈ range lead.modes.u.cols, ∑ k' ∈ range lead.modes.u.cols, star (coef lead own b s k) * coef lead own' b' s' k' *
        (I * ∑ r ∈ range lead.modes.sqrtHop.cols, (star (lead.modes.ulinv.val r k) * lead.modes.u.val r k' - star (lead.modes.u.val r k) * lead.modes.ulinv.val r k')) =
      star (coef lead own b s k) * coef lead own' b' s' k * (if k < lead.modes.nprop then -1 else if k < 2 * lead.modes.nprop then 1 else 0) := by
    intro k hk
    rw [Finset.sum_eq_single k]
    · rw [hc.current k (Finset.mem_range.mp hk) k (Finset.mem_range.mp hk), if_pos rfl]
    · intro k' hk' hne
      rw [hc.current k (Finset.mem_range.mp hk) k' (Finset.mem_range.mp hk'), if_neg (Ne.symm hne), mul_zero]
    · intro h; exact absurd hk h
  rw [Finset.sum_congr rfl h3]
  obtain ⟨d, hd⟩ : ∃ d, lead.modes.u.cols = lead.modes.nprop + (lead.modes.nprop + d) := ⟨lead.modes.u.cols - 2 * lead.modes.nprop, by omega⟩
  rw [hd, Finset.sum_range_add, Finset.sum_range_add]
  have t3 : ∑ x ∈ range d, star (coef lead own b s (lead.modes.nprop + (lead.modes.nprop + x))) * coef lead own' b' s' (lead.modes.nprop + (lead.modes.nprop + x)) *
      (if lead.modes.nprop + (lead.modes.nprop + x) < lead.modes.nprop then -1 else if lead.modes.nprop + (lead.modes.nprop + x) < 2 * lead.modes.nprop then 1 else 0) = 0 := by
    refine Finset.sum_eq_zero fun x _ => ?_
    rw [if_neg (by omega), if_neg (by omega), mul_zero]
  have t2 : ∑ x ∈ range lead.modes.nprop, star (coef lead own b s (lead.modes.nprop + x)) * coef lead own' b' s' (lead.modes.nprop + x) *
      (if lead.modes.nprop + x < lead.modes.nprop then -1 else if lead.modes.nprop + x < 2 * lead.modes.nprop then 1 else 0) =
      ∑ m ∈ range lead.modes.nprop, star (s m) * s' m := by
    refine Finset.sum_congr rfl fun x hx => ?_
    have := Finset.mem_range.mp hx
    rw [if_neg (by omega), if_pos (by omega), mul_one, coef, coef, if_neg (by omega), if_neg (by omega), Nat.add_sub_cancel_left]
  have t1 : ∑ x ∈ range lead.modes.nprop, star (coef lead own b s x) * coef lead own' b' s' x *
      (if x < lead.modes.nprop then (-1 : ℂ) else if x < 2 * lead.modes.nprop then 1 else 0) = - if own ∧ own' ∧ b = b' then 1 else 0 := by
    by_cases ho : own ∧ own' ∧ b = b'
    · rw [if_pos ho, Finset.sum_eq_single b]
      · rw [coef, coef, if_pos (hb ho.1), if_pos (hb ho.1), if_pos (hb ho.1), if_pos ⟨ho.1, rfl⟩, if_pos ⟨ho.2.1, ho.2.2⟩]
        simp
      · intro k hk hkb
        rw [coef, if_pos (Finset.mem_range.mp hk), if_neg (fun h => hkb h.2)]
        simp
      · intro h
        exact absurd (Finset.mem_range.mpr (hb ho.1)) h
    · rw [if_neg ho, neg_zero]
      refine Finset.sum_eq_zero fun k hk => ?_
      rw [coef, coef, if_pos (Finset.mem_range.mp hk), if_pos (Finset.mem_range.mp hk)]
      by_cases h1 : own ∧ k = b
      · rw [if_pos h1, if_neg (fun h2 : own' ∧ k = b' => ho ⟨h1.1, h2.1, h1.2.symm.trans h2.2⟩)]
        simp
      · rw [if_neg h1]
        simp
  rw [t1, t2, t3]
  ring

/-! ### The scattering matrix -/

/-- The interface orbitals are orbitals of the scattering region. -/
theorem orbs_lt_ham {sys : SSys ℂ} (hok : SysOk sys) (l : Fin sys.leads.length) : ∀ α ∈ orbs sys.norb sys.leads[l].interface, α < sys.ham.rows := by
  intro α hα
  have := orbs_lt (hok.iface sys.leads[l] (List.getElem_mem _)) α hα
  have := hok.size
  omega

/-- **C112**: conservation of the current.  For two scattering states at the same real energy, the overlap of the amplitudes of the outgoing propagating modes is that of the
incoming ones, minus what is absorbed by the leads given by a self-energy. -/
theorem C112_flux {sys : SSys ℂ} (hok : SysOk sys) (hH : HermHam sys.ham) {E : ℝ} (hcur : ∀ l ∈ sys.leads, l.hasModes → CurrentOk l.modes)
    {i i' b b' : ℕ} {lead lead' : Lead ℂ} (hi : sys.leads[i]? = some lead) (hi' : sys.leads[i']? = some lead') (hb : b < lead.nprop) (hb' : b' < lead'.nprop)
    {ψ ψ' : ℕ → ℂ} {s s' : ℕ → ℕ → ℂ} (hs : IsScattering sys (E : ℂ) i b ψ s) (hs' : IsScattering sys (E : ℂ) i' b' ψ' s') :
    ∑ l : Fin sys.leads.length, ∑ m ∈ range sys.leads[l].nprop, star (s l m) * s' l m = (if i = i' ∧ b = b' then 1 else 0) - absorbed sys ψ ψ' := by
  -- the incoming modes belong to leads with modes
  have own : ∀ {i b : ℕ} {lead : Lead ℂ}, sys.leads[i]? = some lead → b < lead.nprop → ∀ l : Fin sys.leads.length, (l : ℕ) = i →
      sys.leads[l].hasModes ∧ b < sys.leads[l].modes.nprop := by
    intro i b lead hi hb l hl
    have : sys.leads[l] = lead := by
      rw [← hl, List.getElem?_eq_getElem l.2] at hi
      exact Option.some.inj hi
    rw [this]
    by_cases hm : lead.hasModes
    · rw [Lead.nprop, if_pos hm] at hb
      exact ⟨hm, hb⟩
    · rw [Lead.nprop, if_neg hm] at hb
      omega
  -- the equation in the region, projected
  have proj : ∀ {i b : ℕ} {lead : Lead ℂ}, sys.leads[i]? = some lead → b < lead.nprop → ∀ {ψ : ℕ → ℂ} {s : ℕ → ℕ → ℂ}, IsScattering sys (E : ℂ) i b ψ s → ∀ φ : ℕ → ℂ,
      ∑ α ∈ range sys.ham.rows, star (φ α) * ((∑ β ∈ range sys.ham.rows, sys.ham.val α β * ψ β) - E * ψ α) =
      - ∑ l : Fin sys.leads.length, ∑ α ∈ range sys.ham.rows, star (φ α) * (leadTerm sys.norb sys.leads[l] ψ (s l) α + if (l : ℕ) = i then incoming sys.norb sys.leads[l] b α else 0) := by
    intro i b lead hi hb ψ s hs φ
    rw [Finset.sum_comm, ← Finset.sum_neg_distrib]
    refine Finset.sum_congr rfl fun α hα => ?_
    have := hs.region α (Finset.mem_range.mp hα)
    rw [hok.square, add_assoc, ← Finset.sum_add_distrib] at this
    rw [← Finset.mul_sum, eq_neg_of_add_eq_zero_left this]
    ring
  have e1 := proj hi' hb' hs' ψ
  have e2 := congrArg star (proj hi hb hs ψ')
  -- Hermiticity
  have herm : ∑ α ∈ range sys.ham.rows, star (ψ α) * ((∑ β ∈ range sys.ham.rows, sys.ham.val α β * ψ' β) - E * ψ' α) =
      star (∑ α ∈ range sys.ham.rows, star (ψ' α) * ((∑ β ∈ range sys.ham.rows, sys.ham.val α β * ψ β) - E * ψ α)) := by
    have hE : star (E : ℂ) = E := Complex.conj_ofReal E
    simp only [star_sum, star_mul, star_sub, star_star, mul_sub, sub_mul, Finset.sum_sub_distrib, Finset.mul_sum, Finset.sum_mul, hE]
    congr 1
    · rw [Finset.sum_comm]
      refine Finset.sum_congr rfl fun α hα => Finset.sum_congr rfl fun β hβ => ?_
      rw [hH _ (Finset.mem_range.mp hα) _ (Finset.mem_range.mp hβ)]
      ring
    · refine Finset.sum_congr rfl fun α _ => ?_
      ring
  rw [herm, e2, star_neg, neg_inj] at e1
  rw [star_sum, eq_comm, ← sub_eq_zero, ← Finset.sum_sub_distrib] at e1
  -- lead by lead
  have key : ∀ l : Fin sys.leads.length,
      I * (∑ α ∈ range sys.ham.rows, star (ψ α) * (leadTerm sys.norb sys.leads[l] ψ' (s' l) α + if (l : ℕ) = i' then incoming sys.norb sys.leads[l] b' α else 0) -
        star (∑ α ∈ range sys.ham.rows, star (ψ' α) * (leadTerm sys.norb sys.leads[l] ψ (s l) α + if (l : ℕ) = i then incoming sys.norb sys.leads[l] b α else 0))) =
      (∑ m ∈ range sys.leads[l].nprop, star (s l m) * s' l m) - (if (l : ℕ) = i ∧ (l : ℕ) = i' ∧ b = b' then 1 else 0) +
      if sys.leads[l].isSelfEnergy then
        ∑ p ∈ range (orbs sys.norb sys.leads[l].interface).length, ∑ q ∈ range (orbs sys.norb sys.leads[l].interface).length,
          star (ψ ((orbs sys.norb sys.leads[l].interface).getD p 0)) * (I * (sys.leads[l].sigma.val p q - star (sys.leads[l].sigma.val q p))) *
            ψ' ((orbs sys.norb sys.leads[l].interface).getD q 0) else 0 := by
    intro l
    have hlt := orbs_lt_ham hok l
    by_cases hm : sys.leads[l].hasModes
    · have hmem : sys.leads[l] ∈ sys.leads := List.getElem_mem _
      have hn := (hok.modes _ hmem hm).1
      have o1 : (l : ℕ) = i → b < sys.leads[l].modes.nprop := fun h => (own hi hb l h).2
      have o2 : (l : ℕ) = i' → b' < sys.leads[l].modes.nprop := fun h => (own hi' hb' l h).2
      rw [pair_lead hlt hm hn _ _ o1, pair_lead hlt hm hn _ _ o2]
      have mt : ∀ r ∈ range sys.leads[l].modes.sqrtHop.cols, ∑ p ∈ range (orbs sys.norb sys.leads[l].interface).length,
          star (sys.leads[l].modes.sqrtHop.val p r) * ψ ((orbs sys.norb sys.leads[l].interface).getD p 0) =
          ∑ k ∈ range sys.leads[l].modes.u.cols, sys.leads[l].modes.ulinv.val r k * coef sys.leads[l] ((l : ℕ) = i) b (s l) k := by
        intro r hr
        rw [sum_coef hm hn _ _ o1]
        exact hs.matching l _ (List.getElem?_eq_getElem l.2) hm r (Finset.mem_range.mp hr)
      have mt' : ∀ r ∈ range sys.leads[l].modes.sqrtHop.cols, ∑ p ∈ range (orbs sys.norb sys.leads[l].interface).length,
          star (sys.leads[l].modes.sqrtHop.val p r) * ψ' ((orbs sys.norb sys.leads[l].interface).getD p 0) =
          ∑ k ∈ range sys.leads[l].modes.u.cols, sys.leads[l].modes.ulinv.val r k * coef sys.leads[l] ((l : ℕ) = i') b' (s' l) k := by
        intro r hr
        rw [sum_coef hm hn _ _ o2]
        exact hs'.matching l _ (List.getElem?_eq_getElem l.2) hm r (Finset.mem_range.mp hr)
      have hse : ¬sys.leads[l].isSelfEnergy = true := by rw [hm.1]; simp
      rw [Lead.nprop, if_pos hm, if_neg hse, add_zero, ← lead_current hm (hcur _ hmem hm) _ _ o1 o2, star_sum, ← Finset.sum_sub_distrib]
      congr 1
      refine Finset.sum_congr rfl fun r hr => ?_
      rw [mt r hr, mt' r hr, star_mul, star_star, mul_comm (star (∑ k ∈ range sys.leads[l].modes.u.cols, sys.leads[l].modes.u.val r k * coef sys.leads[l] ((l : ℕ) = i) b (s l) k))]
    · have n1 : ¬(l : ℕ) = i := fun h => hm (own hi hb l h).1
      have n2 : ¬(l : ℕ) = i' := fun h => hm (own hi' hb' l h).1
      simp only [if_neg n1, if_neg n2, add_zero]
      rw [if_neg (fun h => n1 h.1), Lead.nprop, if_neg hm, Finset.range_zero, Finset.sum_empty, sub_zero, zero_add]
      by_cases hse : sys.leads[l].isSelfEnergy = true
      · rw [if_pos hse, pair_sigma hlt hse, pair_sigma hlt hse]
        simp only [star_sum, star_mul, star_star]
        rw [Finset.sum_comm (f := fun p q => star (ψ ((orbs sys.norb sys.leads[l].interface).getD q 0)) * (star (sys.leads[l].sigma.val p q) * ψ' ((orbs sys.norb sys.leads[l].interface).getD p 0))),
          ← Finset.sum_sub_distrib, Finset.mul_sum]
        refine Finset.sum_congr rfl fun p _ => ?_
        rw [← Finset.sum_sub_distrib, Finset.mul_sum]
        refine Finset.sum_congr rfl fun q _ => ?_
        ring
      · rw [if_neg hse]
        have hse' : sys.leads[l].isSelfEnergy = false := Bool.eq_false_iff.mpr hse
        simp only [leadTerm_dead hse' hm, mul_zero, Finset.sum_const_zero, star_zero, sub_zero]
  have e3 := congrArg (I * ·) e1
  simp only [mul_zero, Finset.mul_sum] at e3
  simp only [← Finset.mul_sum] at e3
  rw [Finset.mul_sum, Finset.sum_congr rfl fun l _ => key l, Finset.sum_add_distrib, Finset.sum_sub_distrib] at e3
  have e4 : ∑ l : Fin sys.leads.length, (if (l : ℕ) = i ∧ (l : ℕ) = i' ∧ b = b' then (1 : ℂ) else 0) = if i = i' ∧ b = b' then 1 else 0 := by
    have hil : i < sys.leads.length := by
      by_contra hx; rw [List.getElem?_eq_none (by omega)] at hi; cases hi
    rw [Finset.sum_eq_single ⟨i, hil⟩]
    · simp
    · intro l _ hl
      exact if_neg fun h => hl (Fin.ext h.1)
    · intro h; exact absurd (Finset.mem_univ _) h
  rw [e4] at e3
  rw [absorbed]
  linear_combination e3

/-- The propagating modes of all leads. -/
abbrev Channel (sys : SSys ℂ) : Type := (l : Fin sys.leads.length) × Fin sys.leads[l].nprop

/-- Position of a channel in the scattering matrix, if all leads are requested. -/
def chanPos (sys : SSys ℂ) (c : Channel sys) : ℕ := ((sys.leads.take c.1).map Lead.nprop).sum + c.2

/-- The scattering matrix `data = X[kept_vars]`, with rows and columns labelled by the channels. -/
def smat (sys : SSys ℂ) (kv : List ℕ) (X : ℕ → ℕ → ℂ) : Matrix (Channel sys) (Channel sys) ℂ :=
  Matrix.of fun c d => X (kv.getD (chanPos sys c) 0) (chanPos sys d)

theorem range_take_sum (sys : SSys ℂ) (l : Fin sys.leads.length) :
    (((List.range sys.leads.length).take l).map fun k => ((sys.leads[k]?).map Lead.nprop).getD 0).sum = ((sys.leads.take l).map Lead.nprop).sum := by
  congr 1
  refine List.ext_getElem? fun k => ?_
  rw [List.getElem?_map, List.getElem?_map, List.getElem?_take, List.getElem?_take]
  by_cases hk : k < l
  · have : k < sys.leads.length := lt_trans hk l.2
    rw [if_pos hk, if_pos hk, List.getElem?_range this, List.getElem?_eq_getElem this]
    simp [this]
  · rw [if_neg hk, if_neg hk]; rfl

/-- The rows of the scattering matrix: no kept variable is left out. -/
theorem smat_column {sys : SSys ℂ} {E : ℂ} {check : Bool} {ls : LinearSys ℂ} {kv o i : List ℕ} (hok : SysOk sys)
    (h : smatrixSetup sys E none none check = .ok (ls, kv, o, i)) {X : ℕ → ℕ → ℂ} (hX : Solves ls X) (d : Channel sys) :
    ∃ (ψ : ℕ → ℂ) (s : ℕ → ℕ → ℂ), IsScattering sys E d.1 d.2 ψ s ∧ ∀ c : Channel sys, smat sys kv X c d = s c.1 c.2 := by
  obtain ⟨ho, hi, _⟩ := smatrixSetup_ok h
  rw [Option.getD_none] at ho hi
  subst ho hi
  have hr : ∀ l : Fin sys.leads.length, (List.range sys.leads.length)[(l : ℕ)]? = some (l : ℕ) := fun l => List.getElem?_range l.2
  obtain ⟨ψ, s, h1, h2⟩ := C95_smatrix_partial hok h (.inr rfl) hX (hr d.1) (List.getElem?_eq_getElem d.1.2) d.2.2
  refine ⟨ψ, s, h1, fun c => ?_⟩
  obtain ⟨row, h3, h4⟩ := h2 c.1 c.1 _ c.2 (hr c.1) (List.getElem?_eq_getElem c.1.2) c.2.2
  rw [range_take_sum] at h3 h4
  rw [smat, Matrix.of_apply, List.getD_eq_getElem?_getD]
  have : kv[chanPos sys c]? = some row := h3
  rw [this]
  exact h4

open Matrix in
/-- **C112**: the scattering matrix is unitary, if the Hamiltonian is Hermitian, the energy real, and the modes carry unit current. -/
theorem C112_unitary {sys : SSys ℂ} (hok : SysOk sys) (hH : HermHam sys.ham) {E : ℝ} (hcur : ∀ l ∈ sys.leads, l.hasModes → CurrentOk l.modes)
    {check : Bool} {ls : LinearSys ℂ} {kv o i : List ℕ} (h : smatrixSetup sys (E : ℂ) none none check = .ok (ls, kv, o, i)) {X : ℕ → ℕ → ℂ} (hX : Solves ls X) :
    (smat sys kv X)ᴴ * smat sys kv X = 1 ∧ smat sys kv X * (smat sys kv X)ᴴ = 1 := by
  have hse : ∀ l : Fin sys.leads.length, sys.leads[l].isSelfEnergy = false := by
    intro l
    obtain ⟨ho, _, _, _, _, _, h7, _⟩ := smatrixSetup_ok h
    rw [Option.getD_none] at ho
    obtain ⟨lead, h8, h9⟩ := h7 l (by rw [ho]; simp)
    rw [List.getElem?_eq_getElem l.2] at h8
    rw [← Option.some.inj h8] at h9
    exact h9
  have habs : ∀ ψ ψ', absorbed sys ψ ψ' = 0 := by
    intro ψ ψ'
    refine Finset.sum_eq_zero fun l _ => ?_
    rw [if_neg (by rw [hse l]; simp)]
  have key : (smat sys kv X)ᴴ * smat sys kv X = 1 := by
    ext c d
    obtain ⟨ψ, s, h1, h2⟩ := smat_column hok h hX c
    obtain ⟨ψ', s', h1', h2'⟩ := smat_column hok h hX d
    have := C112_flux hok hH hcur (List.getElem?_eq_getElem c.1.2) (List.getElem?_eq_getElem d.1.2) c.2.2 d.2.2 h1 h1'
    rw [habs, sub_zero] at this
    rw [Matrix.mul_apply, Fintype.sum_sigma, one_apply]
    have e : ∀ l : Fin sys.leads.length, ∑ m : Fin sys.leads[l].nprop, (smat sys kv X)ᴴ c ⟨l, m⟩ * smat sys kv X ⟨l, m⟩ d =
        ∑ m ∈ range sys.leads[l].nprop, star (s l m) * s' l m := by
      intro l
      rw [Finset.sum_range]
      refine Finset.sum_congr rfl fun m _ => ?_
      rw [conjTranspose_apply, h2, h2']
    rw [Finset.sum_congr rfl fun l _ => e l, this]
    congr 1
    rw [eq_iff_iff]
    constructor
    · rintro ⟨h3, h4⟩
      obtain ⟨c1, c2⟩ := c
      obtain ⟨d1, d2⟩ := d
      obtain rfl : c1 = d1 := Fin.ext h3
      obtain rfl : c2 = d2 := Fin.ext h4
      rfl
    · rintro rfl
      exact ⟨rfl, rfl⟩
  exact ⟨key, mul_eq_one_comm.mp key⟩

/-- The transmission from lead `j` to lead `k`: the sum of the squared moduli of a block of the scattering matrix. -/
noncomputable def transm (sys : SSys ℂ) (S : Matrix (Channel sys) (Channel sys) ℂ) (k j : Fin sys.leads.length) : ℝ := ∑ a, ∑ b, normSq (S ⟨k, a⟩ ⟨j, b⟩)

/-- **C112**: the transmissions from a lead to all leads, and from all leads to a lead, add up to the number of modes of this lead. -/
theorem C112_sum_rule {sys : SSys ℂ} (hok : SysOk sys) (hH : HermHam sys.ham) {E : ℝ} (hcur : ∀ l ∈ sys.leads, l.hasModes → CurrentOk l.modes)
    {check : Bool} {ls : LinearSys ℂ} {kv o i : List ℕ} (h : smatrixSetup sys (E : ℂ) none none check = .ok (ls, kv, o, i)) {X : ℕ → ℕ → ℂ} (hX : Solves ls X)
    (j : Fin sys.leads.length) : ∑ k, transm sys (smat sys kv X) k j = sys.leads[j].nprop ∧ ∑ k, transm sys (smat sys kv X) j k = sys.leads[j].nprop := by
  obtain ⟨h1, h2⟩ := C112_unitary hok hH hcur h hX
  generalize smat sys kv X = S at h1 h2
  have n1 : ∀ d, ∑ c, normSq (S c d) = 1 := by
    intro d
    have := congrFun (congrFun h1 d) d
    rw [Matrix.mul_apply, Matrix.one_apply_eq] at this
    have e : ∀ c, S.conjTranspose d c * S c d = (normSq (S c d) : ℂ) := by
      intro c
      rw [Matrix.conjTranspose_apply, star_def, ← Complex.normSq_eq_conj_mul_self]
    simp only [e] at this
    rw [← Complex.ofReal_sum] at this
    exact_mod_cast this
  have n2 : ∀ c, ∑ d, normSq (S c d) = 1 := by
    intro c
    have := congrFun (congrFun h2 c) c
    rw [Matrix.mul_apply, Matrix.one_apply_eq] at this
    have e : ∀ d, S c d * S.conjTranspose d c = (normSq (S c d) : ℂ) := by
      intro d
      rw [Matrix.conjTranspose_apply, star_def, Complex.mul_conj]
    simp only [e] at this
    rw [← Complex.ofReal_sum] at this
    exact_mod_cast this
  constructor
  · have e : ∑ k, transm sys S k j = ∑ b : Fin sys.leads[j].nprop, ∑ c : Channel sys, normSq (S c ⟨j, b⟩) := by
      simp only [transm, Fintype.sum_sigma]
      rw [Finset.sum_comm]
      refine Finset.sum_congr rfl fun k _ => ?_
      rw [Finset.sum_comm]
    rw [e]
    simp only [n1]
    simp
  · have e : ∑ k, transm sys S j k = ∑ a : Fin sys.leads[j].nprop, ∑ d : Channel sys, normSq (S ⟨j, a⟩ d) := by
      simp only [transm, Fintype.sum_sigma]
      rw [Finset.sum_comm]
    rw [e]
    simp only [n2]
    simp

end Kwant.Solver
