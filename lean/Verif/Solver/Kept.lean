import Verif.Solver.LinProps
import Mathlib.NumberTheory.Zsqrtd.GaussianInt
import Mathlib.Data.List.Sort

/-!
C94: the rows of the scattering matrix.  C95: the scattering matrix and the Green's function as solutions.
-/

set_option linter.unusedSectionVars false

namespace Kwant.Solver
open Finset Kwant.System

section
variable {R : Type} [CommRing R] [StarRing R] [DecidableEq R]

/-! ### Lead lists -/

theorem notSorted_iff (l : List ℕ) : notSorted l = false ↔ l.Pairwise (· < ·) := by
  induction l with
  | nil => simp [notSorted]
  | cons a l ih =>
    cases l with
    | nil => simp [notSorted]
    | cons b l =>
      rw [notSorted, Bool.or_eq_false_iff, ih, decide_eq_false_iff_not, Nat.not_le]
      constructor
      · rintro ⟨h1, h2⟩
        refine List.pairwise_cons.mpr ⟨fun c hc => ?_, h2⟩
        rcases List.mem_cons.mp hc with rfl | hc
        · exact h1
        · exact lt_trans h1 ((List.pairwise_cons.mp h2).1 c hc)
      · intro h
        exact ⟨(List.pairwise_cons.mp h).1 b (by simp), (List.pairwise_cons.mp h).2⟩

/-- **C94**: lead lists are accepted exactly if they are strictly increasing and not empty (`None` means all leads). -/
theorem C94_lists (n : ℕ) (outLeads inLeads : Option (List ℕ)) (r : List ℕ × List ℕ) :
    leadLists n outLeads inLeads = .ok r ↔ r = (outLeads.getD (List.range n), inLeads.getD (List.range n)) ∧
      r.1.Pairwise (· < ·) ∧ r.2.Pairwise (· < ·) ∧ r.1 ≠ [] ∧ r.2 ≠ [] := by
  unfold leadLists
  simp only [Bool.or_eq_true]
  generalize outLeads.getD (List.range n) = o
  generalize inLeads.getD (List.range n) = i
  by_cases h1 : notSorted i = true ∨ notSorted o = true
  · rw [if_pos h1]
    constructor
    · intro h; cases h
    · rintro ⟨rfl, h2, h3, _, _⟩
      rw [← notSorted_iff] at h2 h3
      rcases h1 with h1 | h1 <;> simp_all
  · rw [if_neg h1]
    push Not at h1
    have hi : notSorted i = false := by simpa using h1.1
    have ho : notSorted o = false := by simpa using h1.2
    rw [notSorted_iff] at hi ho
    by_cases h2 : i = [] ∨ o = []
    · rw [if_pos h2]
      constructor
      · intro h; cases h
      · rintro ⟨rfl, _, _, h3, h4⟩
        rcases h2 with h2 | h2
        · exact absurd h2 h4
        · exact absurd h2 h3
    · rw [if_neg h2]
      push Not at h2
      constructor
      · intro h; cases h; exact ⟨rfl, ho, hi, h2.2, h2.1⟩
      · rintro ⟨rfl, _⟩; rfl

/-- A strictly increasing list selects in order. -/
theorem filter_range {o : List ℕ} {n : ℕ} (ho : o.Pairwise (· < ·)) (hn : ∀ l ∈ o, l < n) : (List.range n).filter (fun k => k ∈ o) = o := by
  refine List.Perm.eq_of_pairwise (le := (· < ·)) (fun a b _ _ h1 h2 => by omega) ?_ ho ?_
  · exact List.Pairwise.filter _ List.pairwise_lt_range
  · refine (List.perm_ext_iff_of_nodup (List.Nodup.filter _ List.nodup_range) (ho.imp fun h => Nat.ne_of_lt h)).mpr fun a => ?_
    rw [List.mem_filter, List.mem_range, decide_eq_true_iff]
    exact ⟨fun h => h.2, fun h => ⟨hn a h, h⟩⟩

theorem select_eq {α : Type} (l : List α) (o : List ℕ) (ho : o.Pairwise (· < ·)) :
    (l.zipIdx.filter fun p => p.2 ∈ o).map Prod.fst = o.filterMap (l[·]?) := by
  have h1 : l.zipIdx.filter (fun p => p.2 ∈ o) = l.zipIdx.filter (fun p => p.2 ∈ o.filter (· < l.length)) := by
    refine List.filter_congr fun p hp => ?_
    have := List.snd_lt_of_mem_zipIdx hp
    simp at this
    simp [this]
  have h2 : o.filterMap (l[·]?) = (o.filter (· < l.length)).filterMap (l[·]?) := by
    rw [List.filterMap_filter]
    refine List.filterMap_congr fun x _ => ?_
    by_cases hx : x < l.length
    · simp [hx]
    · simp [hx]
  rw [h1, h2]
  have h3 : (o.filter (· < l.length)).Pairwise (· < ·) := ho.filter _
  have h4 : ∀ x ∈ o.filter (· < l.length), x < l.length := fun x hx => by simpa using (List.mem_filter.mp hx).2
  generalize o.filter (· < l.length) = o' at h3 h4
  have hz : l.zipIdx = (List.range l.length).filterMap fun k => l[k]?.map fun a => (a, k) := by
    refine List.ext_getElem? fun k => ?_
    have e : (List.range l.length).filterMap (fun k => l[k]?.map fun a => (a, k)) =
        (List.range l.length).pmap (fun k (hk : k < l.length) => (l[k], k)) (fun k hk => List.mem_range.mp hk) := by
      rw [List.pmap_eq_map_attach, ← List.filterMap_eq_map]
      conv_lhs => rw [← List.attach_map_subtype_val (List.range l.length)]
      rw [List.filterMap_map]
      refine List.filterMap_congr fun x _ => ?_
      have := List.mem_range.mp x.2
      simp [this]
    rw [e, List.getElem?_zipIdx]
    by_cases hk : k < l.length
    · simp [hk]
    · simp [hk]
  conv_rhs => rw [← filter_range h3 h4]
  rw [hz, List.filter_filterMap, List.map_filterMap, List.filterMap_filter]
  refine List.filterMap_congr fun k hk => ?_
  have hk' := List.mem_range.mp hk
  by_cases hx : k ∈ o'
  · simp [hx, hk', Option.filter]
  · simp [hx, hk', Option.filter]

/-! ### Specification -/

/-- Number of propagating outgoing modes. -/
def Lead.nprop (l : Lead R) : ℕ := if l.hasModes then l.modes.nprop else 0

/-- The unknowns that are the amplitudes of the propagating outgoing modes of lead `l`. -/
def modeVars (numOrb : ℕ) (leads : List (Lead R)) (l : ℕ) : List ℕ :=
  match leads[l]? with
  | some lead => (List.range lead.nprop).map fun m => baseVar numOrb leads l + m
  | none => []

/-- `X` solves the linear system for all columns of the right-hand sides. -/
def Solves (ls : LinearSys R) (X : ℕ → ℕ → R) : Prop :=
  ∀ c < (ls.rhs.map Mat.cols).sum, ∀ ρ < ls.lhs.rows, mulVec ls.lhs (fun κ => X κ c) ρ = rhsCol ls.rhs c ρ

/-! ### Kept variables -/

theorem keptVars_ok {indices : List (Option (List ℕ))} {o kv : List ℕ} (ho : o.Pairwise (· < ·)) (h : keptVars indices o = .ok kv) :
    kv = o.flatMap fun l => ((indices[l]?).getD none).getD [] := by
  unfold keptVars at h
  simp only at h
  split at h
  · cases h
  · next hne =>
    cases h
    rw [select_eq _ _ ho]
    clear ho hne
    induction o with
    | nil => rfl
    | cons l o ih =>
      rw [List.flatMap_cons, ← ih, List.filterMap_cons]
      cases indices[l]? <;> rfl

theorem idxSpec_get (base : ℕ) (leads : List (Lead R)) (hz : ∀ l ∈ leads, l.isSelfEnergy = false → l.modes.u.rows ≠ 0) (k : ℕ) :
    (idxSpec base leads)[k]? = leads[k]?.map fun l => if l.isSelfEnergy then none
      else some ((List.range l.modes.nprop).map fun m => baseVar base leads k + m) := by
  induction leads generalizing base k with
  | nil => simp [idxSpec]
  | cons l ls ih =>
    have hb : ∀ k, baseVar (base + l.nout) ls k = baseVar base (l :: ls) (k + 1) := by
      intro k; unfold baseVar
      rw [List.take_succ_cons, List.map_cons, List.sum_cons]; omega
    have ih' := fun k => ih (base + l.nout) (fun l' hl' => hz l' (List.mem_cons_of_mem _ hl')) k
    rw [idxSpec]
    by_cases hse : l.isSelfEnergy = true
    · simp only [if_pos hse]
      cases k with
      | zero => simp [hse]
      | succ k =>
        show (idxSpec (base + l.nout) ls)[k]? = _
        rw [ih', List.getElem?_cons_succ]
        simp only [hb]
    · simp only [if_neg hse, if_neg (hz l (by simp) (by simpa using hse))]
      cases k with
      | zero => simp [hse, baseVar]
      | succ k =>
        show (idxSpec (base + l.nout) ls)[k]? = _
        rw [ih', List.getElem?_cons_succ]
        simp only [hb]

theorem idxSpec_flat (base : ℕ) (leads : List (Lead R)) (hz : ∀ l ∈ leads, l.isSelfEnergy = false) :
    (idxSpec base leads).flatMap (fun o => o.getD []) = (List.range leads.length).flatMap (modeVars base leads) ∧
    (idxSpec base leads).length ≤ leads.length := by
  induction leads generalizing base with
  | nil => simp [idxSpec]
  | cons l ls ih =>
    have hb : ∀ k, baseVar (base + l.nout) ls k = baseVar base (l :: ls) (k + 1) := by
      intro k; unfold baseVar
      rw [List.take_succ_cons, List.map_cons, List.sum_cons]; omega
    have hmv : ∀ k, modeVars (base + l.nout) ls k = modeVars base (l :: ls) (k + 1) := by
      intro k; unfold modeVars
      rw [List.getElem?_cons_succ, hb]
    obtain ⟨i1, i2⟩ := ih (base + l.nout) (fun l' hl' => hz l' (List.mem_cons_of_mem _ hl'))
    have hse : l.isSelfEnergy = false := hz l (by simp)
    rw [idxSpec, hse]
    simp only [Bool.false_eq_true, if_false]
    rw [List.length_cons, List.range_succ_eq_map, List.flatMap_cons, List.flatMap_map, List.flatMap_append, i1]
    have e : (List.range ls.length).flatMap (modeVars (base + l.nout) ls) = (List.range ls.length).flatMap fun k => modeVars base (l :: ls) k.succ :=
      List.flatMap_congr fun k _ => hmv k
    rw [e]
    by_cases hu : l.modes.u.rows = 0
    · rw [if_pos hu]
      refine ⟨?_, by simpa using Nat.le_succ_of_le i2⟩
      congr 1
      have hn : ¬ l.hasModes := fun hx => hx.2 hu
      simp [modeVars, Lead.nprop, hn]
    · rw [if_neg hu]
      refine ⟨?_, by simpa using i2⟩
      congr 1
      have hn : l.hasModes := ⟨hse, hu⟩
      simp [modeVars, Lead.nprop, hn, baseVar]

/-- What is known after `smatrix` has set up the linear system. -/
theorem smatrixSetup_ok {sys : SSys R} {E : R} {outLeads inLeads : Option (List ℕ)} {check : Bool} {ls : LinearSys R} {kv o i : List ℕ}
    (h : smatrixSetup sys E outLeads inLeads check = .ok (ls, kv, o, i)) :
    o = outLeads.getD (List.range sys.leads.length) ∧ i = inLeads.getD (List.range sys.leads.length) ∧
    o.Pairwise (· < ·) ∧ i.Pairwise (· < ·) ∧ o ≠ [] ∧ i ≠ [] ∧
    (∀ l ∈ i ++ o, ∃ lead, sys.leads[l]? = some lead ∧ lead.isSelfEnergy = false) ∧
    makeLinearSys sys i E check false = .ok ls ∧ keptVars ls.indices o = .ok kv := by
  unfold smatrixSetup at h
  split at h
  · cases h
  · next o' i' hl =>
    obtain ⟨h1, h2, h3, h4, h5⟩ := (C94_lists _ _ _ _).mp hl
    split at h
    · cases h
    · next hr =>
      split at h
      · cases h
      · next hs =>
        split at h
        · cases h
        · next ls' hm =>
          split at h
          · cases h
          · next kv' hk =>
            cases h
            refine ⟨congrArg Prod.fst h1, congrArg Prod.snd h1, h2, h3, h4, h5, fun l hl' => ?_, hm, hk⟩
            simp only [Bool.not_eq_true, List.any_eq_false, decide_eq_true_eq] at hr hs
            have hlt : l < sys.leads.length := by have := hr l hl'; omega
            refine ⟨sys.leads[l], List.getElem?_eq_getElem hlt, ?_⟩
            have := hs l hl'
            simp only [List.getD_eq_getElem?_getD, List.getElem?_map, List.getElem?_eq_getElem hlt, Option.map_some, Option.getD_some,
              Bool.not_eq_true] at this
            exact this

/-- **C94 (partial).** If no lead has zero hopping, or if all leads are requested, the rows of the scattering matrix are the
propagating outgoing modes of the requested leads in order.  Missing: leads with zero hopping together with a proper subset of
leads; there the claim is false (`C94_counterexample`). -/
theorem C94_kept_partial {sys : SSys R} {E : R} {outLeads inLeads : Option (List ℕ)} {check : Bool} {ls : LinearSys R} {kv o i : List ℕ}
    (hok : SysOk sys) (h : smatrixSetup sys E outLeads inLeads check = .ok (ls, kv, o, i))
    (hz : (∀ l ∈ sys.leads, l.isSelfEnergy = false → l.modes.u.rows ≠ 0) ∨ o = List.range sys.leads.length) :
    kv = o.flatMap (modeVars ls.numOrb sys.leads) := by
  obtain ⟨_, _, h3, h4, _, _, h7, h8, h9⟩ := smatrixSetup_ok h
  obtain ⟨a1, _, _, a4, _⟩ := makeLinearSys_spec hok h8
  rw [a1]
  rcases hz with hz | hz
  · rw [keptVars_ok h3 h9]
    refine List.flatMap_congr fun l hl => ?_
    obtain ⟨lead, hlead, hse⟩ := h7 l (by simp [hl])
    rw [a4, idxSpec_get _ _ hz, hlead]
    have hm : lead.hasModes := ⟨hse, hz lead (List.mem_of_getElem? hlead) hse⟩
    simp [modeVars, hlead, hse, Lead.nprop, hm]
  · have hse : ∀ l ∈ sys.leads, l.isSelfEnergy = false := by
      intro l hl
      obtain ⟨k, hk, rfl⟩ := List.mem_iff_getElem.mp hl
      obtain ⟨lead, hlead, hs⟩ := h7 k (by simp [hz, hk])
      rw [List.getElem?_eq_getElem hk] at hlead
      obtain rfl := Option.some.inj hlead
      exact hs
    obtain ⟨e1, e2⟩ := idxSpec_flat sys.ham.rows sys.leads hse
    unfold keptVars at h9
    simp only at h9
    split at h9
    · cases h9
    · cases h9
      rw [hz, ← e1, a4]
      congr 1
      have : (idxSpec sys.ham.rows sys.leads).zipIdx.filter (fun p => p.2 ∈ List.range sys.leads.length) = (idxSpec sys.ham.rows sys.leads).zipIdx := by
        refine List.filter_eq_self.mpr fun p hp => ?_
        have := List.snd_lt_of_mem_zipIdx hp
        simp at this
        simp; omega
      rw [this, List.zipIdx_map_fst]

/-! ### The scattering matrix -/

/-- A scattering state depends only on the values in the scattering region and on the amplitudes. -/
theorem IsScattering.congr {sys : SSys R} {E : R} {i b : ℕ} {ψ ψ' : ℕ → R} {s s' : ℕ → ℕ → R} (hok : SysOk sys)
    (h : IsScattering sys E i b ψ s) (h1 : ∀ α < sys.ham.rows, ψ α = ψ' α)
    (h2 : ∀ (k : ℕ) (l : Lead R), sys.leads[k]? = some l → ∀ m < l.nout, s k m = s' k m) : IsScattering sys E i b ψ' s' := by
  have horb : ∀ l ∈ sys.leads, ∀ p < (orbs sys.norb l.interface).length, ψ ((orbs sys.norb l.interface).getD p 0) = ψ' ((orbs sys.norb l.interface).getD p 0) := by
    intro l hl p hp
    apply h1
    have := orbs_lt (hok.iface l hl) ((orbs sys.norb l.interface).getD p 0) (by
      rw [List.getD_eq_getElem?_getD, List.getElem?_eq_getElem hp]; exact List.getElem_mem _)
    have := hok.size
    omega
  constructor
  · intro α hα
    have e0 := h.region α hα
    have e1 : ∑ β ∈ range sys.ham.cols, sys.ham.val α β * ψ β = ∑ β ∈ range sys.ham.cols, sys.ham.val α β * ψ' β := by
      refine Finset.sum_congr rfl fun β hβ => ?_
      rw [h1 β (by have := Finset.mem_range.mp hβ; have := hok.square; omega)]
    have e2 : ∑ l : Fin sys.leads.length, leadTerm sys.norb sys.leads[l] ψ (s l) α = ∑ l : Fin sys.leads.length, leadTerm sys.norb sys.leads[l] ψ' (s' l) α := by
      refine Finset.sum_congr rfl fun k _ => ?_
      unfold leadTerm
      refine Finset.sum_congr rfl fun p _ => ?_
      congr 1
      congr 1
      · refine Finset.sum_congr rfl fun q hq => ?_
        exact congrArg _ (horb sys.leads[k] (List.getElem_mem _) q (Finset.mem_range.mp hq))
      · refine Finset.sum_congr rfl fun m hm => ?_
        exact congrArg _ (h2 k sys.leads[k] (List.getElem?_eq_getElem k.2) m (Finset.mem_range.mp hm))
    rw [e1, e2, h1 α hα] at e0
    exact e0
  · intro k l hk hm r hr
    have := h.matching k l hk hm r hr
    have e1 : ∑ m ∈ range l.nout, l.modes.ulinv.val r (l.modes.nprop + m) * s k m = ∑ m ∈ range l.nout, l.modes.ulinv.val r (l.modes.nprop + m) * s' k m :=
      Finset.sum_congr rfl fun m hm' => by rw [h2 k l hk m (Finset.mem_range.mp hm')]
    rw [← e1, ← this]
    refine Finset.sum_congr rfl fun p hp => ?_
    rw [horb l (List.mem_of_getElem? hk) p (Finset.mem_range.mp hp)]

/-- Packing a scattering state into a vector of unknowns. -/
theorem pack (base : ℕ) (leads : List (Lead R)) (ψ : ℕ → R) (s : ℕ → ℕ → R) :
    ∃ x : ℕ → R, (∀ α < base, x α = ψ α) ∧ ∀ (k : ℕ) (l : Lead R), leads[k]? = some l → ∀ m < l.nout, x (baseVar base leads k + m) = s k m := by
  induction leads generalizing base s ψ with
  | nil => exact ⟨ψ, fun _ _ => rfl, fun k l hk => by simp at hk⟩
  | cons l ls ih =>
    obtain ⟨x, hx1, hx2⟩ := ih (base + l.nout) (fun α => if α < base then ψ α else s 0 (α - base)) (fun k => s (k + 1))
    refine ⟨x, fun α hα => ?_, fun k l' hk m hm => ?_⟩
    · rw [hx1 α (by omega), if_pos hα]
    · cases k with
      | zero =>
        simp only [List.getElem?_cons_zero, Option.some.injEq] at hk
        subst hk
        have : baseVar base (l :: ls) 0 = base := by simp [baseVar]
        rw [this, hx1 _ (by omega), if_neg (by omega), Nat.add_sub_cancel_left]
      | succ k =>
        rw [← hx2 k l' hk m hm]
        congr 2
        unfold baseVar
        rw [List.take_succ_cons, List.map_cons, List.sum_cons]; omega

/-- **C95**: every scattering state solves the linear system; so if the linear system has only one solution, the amplitudes read off
from the solution are those of the scattering state. -/
theorem C95_complete {sys : SSys R} {inLeads : List ℕ} {E : R} {check : Bool} {ls : LinearSys R} (hok : SysOk sys)
    (h : makeLinearSys sys inLeads E check false = .ok ls) {i b : ℕ} {lead : Lead R} (hi : i ∈ inLeads) (hl : sys.leads[i]? = some lead)
    (hm : lead.hasModes) (hb : b < lead.modes.nprop) {ψ : ℕ → R} {s : ℕ → ℕ → R} (hs : IsScattering sys E i b ψ s)
    (huniq : ∀ x y : ℕ → R, (∀ ρ < ls.lhs.rows, mulVec ls.lhs x ρ = mulVec ls.lhs y ρ) → ∀ κ < ls.lhs.cols, x κ = y κ)
    {B : Mat R} (hB : ls.rhs[i]? = some B) {x : ℕ → R} (hx : ∀ ρ < ls.lhs.rows, mulVec ls.lhs x ρ = B.val ρ b) :
    (∀ α < sys.ham.rows, x α = ψ α) ∧
    ∀ (k : ℕ) (l : Lead R), sys.leads[k]? = some l → ∀ m < l.nout, x (baseVar sys.ham.rows sys.leads k + m) = s k m := by
  obtain ⟨y, hy1, hy2⟩ := pack sys.ham.rows sys.leads ψ s
  obtain ⟨B', hB', _, _, hiff⟩ := C95_scattering hok h hi hl hm hb
  obtain rfl : B = B' := Option.some.inj (hB.symm.trans hB')
  have hy : ∀ ρ < ls.lhs.rows, mulVec ls.lhs y ρ = B.val ρ b := (hiff y).mpr (hs.congr hok (fun α hα => (hy1 α hα).symm) (fun k l hk m hm' => (hy2 k l hk m hm').symm))
  obtain ⟨_, a2, a3, _⟩ := makeLinearSys_spec hok h
  have hxy := huniq x y (fun ρ hρ => by rw [hx ρ hρ, hy ρ hρ])
  refine ⟨fun α hα => by rw [hxy α (by omega), hy1 α hα], fun k l hk m hm' => ?_⟩
  have := baseVar_total sys.ham.rows sys.leads k l hk
  rw [hxy _ (by omega), hy2 k l hk m hm']

theorem flatMap_get {α : Type} (o : List ℕ) (f : ℕ → List α) (j l a : ℕ) (x : α) (hj : o[j]? = some l) (ha : (f l)[a]? = some x) :
    (o.flatMap f)[((o.take j).map fun k => (f k).length).sum + a]? = some x := by
  induction o generalizing j with
  | nil => simp at hj
  | cons b o ih =>
    cases j with
    | zero =>
      simp only [List.getElem?_cons_zero, Option.some.injEq] at hj
      subst hj
      simp only [List.take_zero, List.map_nil, List.sum_nil, Nat.zero_add, List.flatMap_cons]
      rw [List.getElem?_append_left]
      · exact ha
      · by_contra hx; rw [List.getElem?_eq_none (by omega)] at ha; cases ha
    | succ j =>
      rw [List.getElem?_cons_succ] at hj
      rw [List.take_succ_cons, List.map_cons, List.sum_cons, List.flatMap_cons, List.getElem?_append_right (by omega), ← ih j hj]
      congr 1
      omega

/-- The blocks before an incoming lead have as many columns as there are incoming modes in the requested leads before it. -/
theorem rhs_take_sum {sys : SSys R} {inLeads : List ℕ} {E : R} {check : Bool} {ls : LinearSys R} (hok : SysOk sys)
    (h : makeLinearSys sys inLeads E check false = .ok ls) (i : ℕ) (hi : i ≤ sys.leads.length) :
    ((ls.rhs.take i).map Mat.cols).sum =
      (((List.range i).filter (fun k => k ∈ inLeads)).map fun k => ((sys.leads[k]?).map Lead.nprop).getD 0).sum := by
  obtain ⟨h1, h2⟩ := C95_other_blocks hok h
  induction i with
  | zero => simp
  | succ i ih =>
    obtain ⟨B, hB, _, hc⟩ := h2 i sys.leads[i] (List.getElem?_eq_getElem (by omega))
    rw [List.take_add_one, hB, List.map_append, List.sum_append, ih (by omega), List.range_succ, List.filter_append, List.map_append, List.sum_append]
    congr 1
    simp only [Option.toList_some, List.map_cons, List.map_nil, List.sum_cons, List.sum_nil, Nat.add_zero, hc]
    by_cases hm : i ∈ inLeads
    · simp [hm, Lead.nprop, List.getElem?_eq_getElem (show i < sys.leads.length by omega)]
    · simp [hm]

theorem filter_range_lt {o : List ℕ} (ho : o.Pairwise (· < ·)) (j l : ℕ) (hj : o[j]? = some l) :
    (List.range l).filter (fun k => k ∈ o) = o.take j := by
  have hjl : j < o.length := by
    by_contra hx; rw [List.getElem?_eq_none (by omega)] at hj; cases hj
  have hmem : ∀ a, a ∈ o.take j ↔ a ∈ o ∧ a < l := by
    intro a
    rw [List.getElem?_eq_getElem hjl] at hj
    obtain rfl := Option.some.inj hj
    rw [List.pairwise_iff_getElem] at ho
    constructor
    · intro h
      obtain ⟨k, hk, rfl⟩ := List.mem_iff_getElem.mp h
      rw [List.length_take] at hk
      rw [List.getElem_take]
      exact ⟨List.getElem_mem _, ho k j (by omega) hjl (by omega)⟩
    · rintro ⟨h, hlt⟩
      obtain ⟨k, hk, rfl⟩ := List.mem_iff_getElem.mp h
      have : k < j := by
        by_contra hx
        rcases Nat.lt_or_ge j k with h' | h'
        · have := ho j k hjl hk h'; omega
        · have : k = j := by omega
          subst this; omega
      exact List.mem_iff_getElem.mpr ⟨k, by rw [List.length_take]; omega, by rw [List.getElem_take]⟩
  refine List.Perm.eq_of_pairwise (le := (· < ·)) (fun a b _ _ h1 h2 => by omega) ?_ (ho.sublist (List.take_sublist _ _)) ?_
  · exact List.Pairwise.filter _ List.pairwise_lt_range
  · refine (List.perm_ext_iff_of_nodup (List.Nodup.filter _ List.nodup_range) ((ho.sublist (List.take_sublist _ _)).imp fun h => Nat.ne_of_lt h)).mpr fun a => ?_
    rw [List.mem_filter, List.mem_range, decide_eq_true_iff, hmem]
    exact ⟨fun h => ⟨h.2, h.1⟩, fun h => ⟨h.2, h.1⟩⟩

/-- **C95 (partial).** Elements of the scattering matrix: for column `b` of the `ji`-th requested incoming lead there is one scattering state such
that at row `a` of the `jo`-th requested outgoing lead (the positions of `BlockResult`, C55), `data = X[kept]` is the amplitude of the outgoing mode `a` in
it.  The same restriction as in `C94_kept_partial`. -/
theorem C95_smatrix_partial {sys : SSys R} {E : R} {outLeads inLeads : Option (List ℕ)} {check : Bool} {ls : LinearSys R} {kv o i : List ℕ}
    (hok : SysOk sys) (h : smatrixSetup sys E outLeads inLeads check = .ok (ls, kv, o, i))
    (hz : (∀ l ∈ sys.leads, l.isSelfEnergy = false → l.modes.u.rows ≠ 0) ∨ o = List.range sys.leads.length)
    {X : ℕ → ℕ → R} (hX : Solves ls X) {ji li : ℕ} (hji : i[ji]? = some li)
    {lead' : Lead R} (hli : sys.leads[li]? = some lead') {b : ℕ} (hb : b < lead'.nprop) :
    ∃ (ψ : ℕ → R) (s : ℕ → ℕ → R), IsScattering sys E li b ψ s ∧
      ∀ (jo lo : ℕ) (lead : Lead R) (a : ℕ), o[jo]? = some lo → sys.leads[lo]? = some lead → a < lead.nprop →
      ∃ row, kv[((o.take jo).map fun k => ((sys.leads[k]?).map Lead.nprop).getD 0).sum + a]? = some row ∧
        X row (((i.take ji).map fun k => ((sys.leads[k]?).map Lead.nprop).getD 0).sum + b) = s lo a := by
  obtain ⟨_, _, h3, h4, _, _, h7, h8, h9⟩ := smatrixSetup_ok h
  have hm' : lead'.hasModes := by
    by_contra hx; rw [Lead.nprop, if_neg hx] at hb; omega
  have hb' : b < lead'.modes.nprop := by rw [Lead.nprop, if_pos hm'] at hb; exact hb
  obtain ⟨B, hB, hB1, hB2, hiff⟩ := C95_scattering hok h8 (List.mem_of_getElem? hji) hli hm' hb'
  have hlil : li < sys.leads.length := by
    by_contra hx; rw [List.getElem?_eq_none (by omega)] at hli; cases hli
  have hsum := rhs_take_sum hok h8 li (by omega)
  rw [filter_range_lt h4 ji li hji] at hsum
  have hcol : ((i.take ji).map fun k => ((sys.leads[k]?).map Lead.nprop).getD 0).sum + b < (ls.rhs.map Mat.cols).sum := by
    rw [← hsum]
    have hlen : li < ls.rhs.length := by
      by_contra hx; rw [List.getElem?_eq_none (by omega)] at hB; cases hB
    have e : (ls.rhs.map Mat.cols).sum = ((ls.rhs.take li).map Mat.cols).sum + ((ls.rhs.drop li).map Mat.cols).sum := by
      rw [← List.sum_append, ← List.map_append, List.take_append_drop]
    rw [e, List.drop_eq_getElem_cons hlen, List.map_cons, List.sum_cons]
    rw [List.getElem?_eq_getElem hlen] at hB
    rw [Option.some.inj hB]
    omega
  have hsol := hX _ hcol
  refine ⟨fun κ => X κ (((i.take ji).map fun k => ((sys.leads[k]?).map Lead.nprop).getD 0).sum + b),
    fun l m => X (baseVar sys.ham.rows sys.leads l + m) (((i.take ji).map fun k => ((sys.leads[k]?).map Lead.nprop).getD 0).sum + b), ?_,
    fun jo lo lead a hjo hlo ha => ⟨baseVar sys.ham.rows sys.leads lo + a, ?_, rfl⟩⟩
  · refine (hiff _).mp fun ρ hρ => ?_
    rw [hsol ρ hρ, ← hsum, rhsCol_get ls.rhs li b B hB (by omega)]
  · have hk := C94_kept_partial hok h hz
    have hno : ls.numOrb = sys.ham.rows := (makeLinearSys_spec hok h8).1
    rw [hno] at hk
    rw [hk]
    have e : (fun k => ((sys.leads[k]?).map Lead.nprop).getD 0) = fun k => (modeVars sys.ham.rows sys.leads k).length := by
      funext k
      unfold modeVars
      cases sys.leads[k]? <;> simp
    rw [e]
    refine flatMap_get o _ jo lo a _ hjo ?_
    simp [modeVars, hlo, ha]

/-! ### The Green's function -/

/-- The self-energy of a lead as a matrix on all orbitals. -/
def sigmaAt (norb : List ℕ) (l : Lead R) (α β : ℕ) : R :=
  ∑ p ∈ range (orbs norb l.interface).length, ∑ q ∈ range (orbs norb l.interface).length,
    if (orbs norb l.interface)[p]? = some α ∧ (orbs norb l.interface)[q]? = some β then l.sigma.val p q else 0

/-- `E - H - Σ` -/
def invGreen (sys : SSys R) (E : R) (α β : ℕ) : R :=
  (if α = β then E else 0) - sys.ham.val α β - ∑ l : Fin sys.leads.length, sigmaAt sys.norb sys.leads[l] α β

/-- The interface orbitals of lead `l`. -/
def leadOrbs (sys : SSys R) (l : ℕ) : List ℕ := match sys.leads[l]? with
  | some lead => orbs sys.norb lead.interface
  | none => []

theorem leadLoopReal_spec {norb inLeads : List ℕ} {st st' : LState R} {n : ℕ} {leads : List (Lead R)}
    (h : leadLoop (leadStepReal norb inLeads) st n leads = .ok st')
    (hif : ∀ l ∈ leads, ∀ i ∈ l.interface, i < norb.length) :
    st'.lhs.rows = st.lhs.rows ∧ st'.lhs.cols = st.lhs.cols ∧
    st'.indices = st.indices ++ leads.map (fun l => some (orbs norb l.interface)) ∧
    st'.rhs = st.rhs ++ ((leads.zipIdx n).filter (fun p => p.2 ∈ inLeads)).map (fun p => .coords (orbs norb p.1.interface)) ∧
    (∀ α β, st'.lhs.val α β = st.lhs.val α β + ∑ k : Fin leads.length, sigmaAt norb leads[k] α β) := by
  induction leads generalizing st n with
  | nil =>
    cases h
    exact ⟨rfl, rfl, by simp, by simp, fun α β => by simp⟩
  | cons l ls ih =>
    simp only [leadLoop] at h
    split at h
    · cases h
    · next st1 h1 =>
      obtain ⟨b1, b2, b3, b4, b5⟩ := ih h (fun l' hl' => hif l' (List.mem_cons_of_mem _ hl'))
      unfold leadStepReal at h1
      split at h1
      · cases h1
      · next c hc =>
        have := ifaceOrbs_eq (hif l (by simp)) hc
        subst this
        split at h1
        · cases h1
        · cases h1
          refine ⟨b1, b2, ?_, ?_, ?_⟩
          · rw [b3, List.map_cons, List.append_assoc]; rfl
          · rw [b4, List.zipIdx_cons]
            by_cases hn : n ∈ inLeads
            · simp [hn]
            · simp [hn]
          · intro α β
            have e : (∑ k : Fin (l :: ls).length, sigmaAt norb (l :: ls)[k] α β) =
              sigmaAt norb l α β + ∑ k : Fin ls.length, sigmaAt norb ls[k] α β :=
              Fin.sum_univ_succ (n := ls.length) (fun k : Fin (ls.length + 1) => sigmaAt norb (l :: ls)[k] α β)
            rw [b5, e, ← add_assoc]
            rfl

theorem rhsCol_coords (rows : ℕ) (l : List (List ℕ)) (c α : ℕ) :
    rhsCol ((l.map Rhs.coords).map (resize (R := R) rows)) c α = if (l.flatMap id)[c]? = some α then -1 else 0 := by
  induction l generalizing c with
  | nil => simp [rhsCol]
  | cons a l ih =>
    rw [List.map_cons, List.map_cons, rhsCol, List.flatMap_cons, id_eq]
    by_cases hc : c < a.length
    · rw [if_pos (show c < (resize (R := R) rows (.coords a)).cols from hc), List.getElem?_append_left hc]
      rfl
    · rw [if_neg (show ¬ c < (resize (R := R) rows (.coords a)).cols from hc), List.getElem?_append_right (by simpa using hc)]
      exact ih _

/-- **C95**: `greens_function`.  The rows are the interface orbitals of the requested outgoing leads, the columns those of the
incoming leads, and the solutions of the linear system are exactly the columns of the inverse of `E - H - Σ`. -/
theorem C95_greens {sys : SSys R} {E : R} {outLeads inLeads : Option (List ℕ)} {check : Bool} {ls : LinearSys R} {kv o i : List ℕ}
    (hok : SysOk sys) (h : greensSetup sys E outLeads inLeads check = .ok (ls, kv, o, i)) :
    kv = o.flatMap (leadOrbs sys) ∧ ls.lhs.rows = sys.ham.rows ∧ ls.lhs.cols = sys.ham.rows ∧
    (ls.rhs.map Mat.cols).sum = (i.flatMap (leadOrbs sys)).length ∧
    ∀ X : ℕ → ℕ → R, Solves ls X ↔ ∀ (c β : ℕ), (i.flatMap (leadOrbs sys))[c]? = some β → ∀ α < sys.ham.rows,
      ∑ γ ∈ range sys.ham.rows, invGreen sys E α γ * X γ c = if α = β then 1 else 0 := by
  unfold greensSetup at h
  split at h
  · cases h
  · next o' i' hl =>
    obtain ⟨_, h2, h3, _, _⟩ := (C94_lists _ _ _ _).mp hl
    split at h
    · cases h
    · next ls' hm =>
      split at h
      · cases h
      · next kv' hk =>
        cases h
        unfold makeLinearSys at hm
        split at hm
        · cases hm
        · split at hm
          · cases hm
          · split at hm
            · cases hm
            · next st hst =>
              cases hm
              simp only [if_true] at hst
              obtain ⟨a1, a2, a3, a4, a5⟩ := leadLoopReal_spec hst hok.iface
              have hrhs' : st.rhs = ((i.filter (fun k => decide (k < sys.leads.length))).map (leadOrbs sys)).map Rhs.coords ∧
                  (((i.filter (fun k => decide (k < sys.leads.length))).map (leadOrbs sys)).flatMap id) = i.flatMap (leadOrbs sys) := by
                have hf : (((i.filter (fun k => decide (k < sys.leads.length))).map (leadOrbs sys)).flatMap id) = i.flatMap (leadOrbs sys) := by
                  clear * -
                  induction i with
                  | nil => rfl
                  | cons k i ih =>
                    by_cases hk : k < sys.leads.length
                    · simp only [List.filter_cons, hk, decide_true, if_true, List.map_cons, List.flatMap_cons]
                      rw [ih]; rfl
                    · simp only [List.filter_cons, hk, decide_false, Bool.false_eq_true, if_false, List.flatMap_cons]
                      rw [ih]; simp [leadOrbs, hk]
                refine ⟨?_, hf⟩
                have e : (sys.leads.zipIdx.filter (fun p => p.2 ∈ i)).map (fun p => Rhs.coords (R := R) (orbs sys.norb p.1.interface)) =
                    ((sys.leads.zipIdx.filter (fun p => p.2 ∈ i)).map Prod.fst).map (fun l => Rhs.coords (orbs sys.norb l.interface)) := by
                  rw [List.map_map]; rfl
                rw [a4, e, select_eq _ _ h3, List.nil_append]
                clear * -
                induction i with
                | nil => rfl
                | cons k i ih =>
                  by_cases hk : k < sys.leads.length
                  · rw [List.filterMap_cons, List.getElem?_eq_getElem hk]
                    simp only [List.map_cons, List.filter_cons, hk, decide_true, if_true]
                    rw [ih]
                    simp [leadOrbs, hk]
                  · rw [List.filterMap_cons, List.getElem?_eq_none (by omega)]
                    simp only [List.filter_cons, hk, decide_false, Bool.false_eq_true, if_false]
                    exact ih
              obtain ⟨r1, r2⟩ := hrhs'
              have hcols : ((st.rhs.map (resize st.lhs.rows)).map Mat.cols).sum = (i.flatMap (leadOrbs sys)).length := by
                rw [r1, ← r2]
                generalize (i.filter (fun k => decide (k < sys.leads.length))).map (leadOrbs sys) = L
                induction L with
                | nil => rfl
                | cons a L ih => rw [List.map_cons, List.map_cons, List.map_cons, List.sum_cons, ih, List.flatMap_cons, List.length_append]; rfl
              refine ⟨?_, a1, ?_, hcols, ?_⟩
              · rw [keptVars_ok h2 hk]
                refine List.flatMap_congr fun l _ => ?_
                show ((st.indices[l]?).getD none).getD [] = _
                rw [a3]
                unfold leadOrbs
                rw [List.nil_append, List.getElem?_map]
                cases sys.leads[l]? <;> rfl
              · show st.lhs.cols = _
                rw [a2]; exact hok.square
              · intro X
                unfold Solves
                have hval : ∀ α γ, st.lhs.val α γ = - invGreen sys E α γ := by
                  intro α γ
                  rw [a5]
                  unfold invGreen hamMinusE
                  simp only
                  ring
                have hmv : ∀ c α, mulVec st.lhs (fun κ => X κ c) α = - ∑ γ ∈ range sys.ham.rows, invGreen sys E α γ * X γ c := by
                  intro c α
                  unfold mulVec
                  rw [a2, show (hamMinusE sys.ham E).cols = sys.ham.rows from hok.square, ← Finset.sum_neg_distrib]
                  refine Finset.sum_congr rfl fun γ _ => ?_
                  rw [hval, neg_mul]
                have hr : st.lhs.rows = sys.ham.rows := a1
                rw [hcols, hr]
                simp only [r1, rhsCol_coords, r2, hmv]
                constructor
                · intro hs c β hc α hα
                  have hcl : c < (i.flatMap (leadOrbs sys)).length := by
                    by_contra hx; rw [List.getElem?_eq_none (by omega)] at hc; cases hc
                  have := hs c hcl α hα
                  rw [hc] at this
                  rw [← neg_neg (∑ γ ∈ range sys.ham.rows, invGreen sys E α γ * X γ c), this]
                  by_cases hab : α = β
                  · subst hab; simp
                  · rw [if_neg (by simpa using Ne.symm hab), if_neg hab, neg_zero]
                · intro hs c hcl α hα
                  have hc := List.getElem?_eq_getElem hcl
                  rw [hs c _ hc α hα, hc]
                  by_cases hab : α = (i.flatMap (leadOrbs sys))[c]
                  · rw [if_pos hab, if_pos (by rw [hab])]
                  · rw [if_neg hab, if_neg (by simpa using Ne.symm hab), neg_zero]

end

/-! ### Counterexample and examples -/

/-- A chain lead at zero energy with one mode in each direction (not normalized). -/
def chainLead : Lead GaussianInt :=
  ⟨false, ⟨1, 1, fun _ _ => 0⟩, ⟨⟨1, 2, fun _ _ => 1⟩, ⟨1, 2, fun _ k => if k = 0 then ⟨0, 1⟩ else ⟨0, -1⟩⟩, 1, ⟨1, 1, fun _ _ => 1⟩⟩, [0]⟩

/-- A lead with zero hopping (`physics.modes` returns empty arrays). -/
def deadLead : Lead GaussianInt :=
  ⟨false, ⟨1, 1, fun _ _ => 0⟩, ⟨⟨0, 0, fun _ _ => 0⟩, ⟨0, 0, fun _ _ => 0⟩, 0, ⟨1, 0, fun _ _ => 0⟩⟩, [0]⟩

/-- One site with a dead lead and two chains. -/
def deadSys : SSys GaussianInt := ⟨⟨1, 1, fun _ _ => 0⟩, [1], [deadLead, chainLead, chainLead]⟩

/-- One site with two chains. -/
def liveSys : SSys GaussianInt := ⟨⟨1, 1, fun _ _ => 0⟩, [1], [chainLead, chainLead]⟩

theorem deadSys_ok : SysOk deadSys := by
  refine ⟨rfl, rfl, ?_, ?_⟩
  · intro l hl
    simp only [deadSys, List.mem_cons, List.not_mem_nil, or_false] at hl
    rcases hl with rfl | rfl | rfl <;> simp [deadLead, chainLead, deadSys]
  · intro l hl hm
    simp only [deadSys, List.mem_cons, List.not_mem_nil, or_false] at hl
    rcases hl with rfl | rfl | rfl
    · exact absurd rfl hm.2
    · exact ⟨by decide, rfl⟩
    · exact ⟨by decide, rfl⟩

theorem liveSys_ok : SysOk liveSys := by
  refine ⟨rfl, rfl, ?_, ?_⟩
  · intro l hl
    simp only [liveSys, List.mem_cons, List.not_mem_nil, or_false] at hl
    rcases hl with rfl | rfl <;> simp [chainLead, liveSys]
  · intro l hl hm
    simp only [liveSys, List.mem_cons, List.not_mem_nil, or_false] at hl
    rcases hl with rfl | rfl
    · exact ⟨by decide, rfl⟩
    · exact ⟨by decide, rfl⟩

/-- The kept variables of a call of `smatrix`. -/
def keptOf (sys : SSys GaussianInt) (outLeads : Option (List ℕ)) : Option (List ℕ) :=
  match smatrixSetup sys 0 outLeads none true with
  | .ok (_, kv, _, _) => some kv
  | .error _ => none

/-- The hypotheses of `C94_kept_partial` and `C95_smatrix_partial` can be met, and with a nontrivial result. -/
theorem live_kept : keptOf liveSys none = some [1, 2] ∧ keptOf liveSys (some [1]) = some [2] := by
  constructor <;> decide +kernel

/-- **C94 is false in general**: with a lead without hopping before them, asking for the modes of lead 1 gives those of lead 2. -/
theorem C94_counterexample : modeVars 1 deadSys.leads 1 = [1] ∧ modeVars 1 deadSys.leads 2 = [2] ∧
    keptOf deadSys (some [1]) = some [2] ∧ keptOf deadSys (some [0]) = some [1] ∧ keptOf deadSys (some [2]) = none ∧
    keptOf deadSys none = some [1, 2] := by
  refine ⟨by decide, by decide, ?_, ?_, ?_, ?_⟩ <;> decide +kernel

/-- The solution for the site between two chains: everything is transmitted. -/
def liveX : ℕ → ℕ → GaussianInt := fun κ c => if κ = 0 then ⟨0, 1⟩ else if κ = c + 1 then 0 else -1

/-- The hypotheses of `C95_smatrix_partial` can be met. -/
theorem live_solves : ∃ ls kv o i, smatrixSetup liveSys 0 none none true = .ok (ls, kv, o, i) ∧ Solves ls liveX := by
  refine ⟨_, _, _, _, rfl, ?_⟩
  unfold Solves
  decide +kernel

/-- The hypotheses of `C95_greens` can be met. -/
theorem live_greens : ∃ ls kv o i, greensSetup liveSys 1 none none true = .ok (ls, kv, o, i) ∧ Solves ls (fun _ _ => 1) := by
  refine ⟨_, _, _, _, rfl, ?_⟩
  unfold Solves
  decide +kernel

end Kwant.Solver
