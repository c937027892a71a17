import Verif.Scatt.SymBasis
import Verif.Scatt.Regular

/-!
C191: moving cells of a lead into the scattering region.
-/

set_option linter.unusedSectionVars false

namespace Kwant.Scatt
open Finset Complex Filter
open Matrix hiding mulVec
open Kwant.Leads hiding Modes
open Kwant.Solver hiding transmission LErr mulVec

variable {T : Open} {E : ℝ}

/-! ### Specification -/

/-- A system with the same leads, but another scattering region. -/
@[reducible] def Open.withRegion (T : Open) (ham : System.Mat ℂ) (norb : List ℕ) (ifc : Fin T.N → List ℕ) : Open :=
  ⟨ham, norb, T.N, fun x => ⟨(T.lead x).n, (T.lead x).m, (T.lead x).ham, (T.lead x).hop, ifc x, (T.lead x).projectors, (T.lead x).sy⟩⟩

/-- The Hamiltonian of the scattering region together with the first cell of lead `l`, whose orbitals come last. -/
noncomputable def Open.cellHam (T : Open) (l : Fin T.N) (α β : ℕ) : ℂ :=
  if α < T.ham.rows then
    if β < T.ham.rows then T.ham.val α β else T.fromLead l (fun p => star ((toMat (T.lead l).hop).val (β - T.ham.rows) p)) α
  else
    if β < T.ham.rows then T.fromLead l (fun p => (toMat (T.lead l).hop).val (α - T.ham.rows) p) β else (toMat (T.lead l).ham).val (α - T.ham.rows) (β - T.ham.rows)

/-- The first cell of lead `l` is made a part of the scattering region, and the rest of the lead is attached to it.  `cell` lists the numbers of orbitals of the sites of a cell, the first `k` of
them are connected to the next cell. -/
@[reducible] noncomputable def Open.addCell (T : Open) (l : Fin T.N) (cell : List ℕ) (k : ℕ) : Open :=
  T.withRegion ⟨T.ham.rows + (T.lead l).n, T.ham.rows + (T.lead l).n, T.cellHam l⟩ (T.norb ++ cell) fun x => if x = l then List.range' T.norb.length k else (T.lead x).interface

/-- The sites of a cell of lead `l`. -/
structure CellSites (T : Open) (l : Fin T.N) (cell : List ℕ) (k : ℕ) : Prop where
  size : cell.sum = (T.lead l).n
  interface : k ≤ cell.length
  width : (cell.take k).sum = (T.lead l).m
  herm : (T.lead l).ham.IsHermitian

/-! ### Orbitals -/

theorem orbs_append {norb cell ifc : List ℕ} (h : ∀ i ∈ ifc, i < norb.length) : orbs (norb ++ cell) ifc = orbs norb ifc := by
  unfold orbs
  refine List.flatMap_congr fun i hi => ?_
  have hi' := h i hi
  rw [List.getD_eq_getElem?_getD, List.getD_eq_getElem?_getD, List.getElem?_append_left hi', List.take_append_of_le_length (le_of_lt hi')]

theorem orbs_new (norb : List ℕ) {cell : List ℕ} {k : ℕ} (hk : k ≤ cell.length) : orbs (norb ++ cell) (List.range' norb.length k) = List.range' norb.sum (cell.take k).sum := by
  induction k with
  | zero => simp [orbs]
  | succ k ih =>
    have hk' : k < cell.length := hk
    have h1 := ih (by omega)
    have h2 : orbs (norb ++ cell) (List.range' norb.length (k + 1)) = orbs (norb ++ cell) (List.range' norb.length k) ++ orbs (norb ++ cell) [norb.length + k] := by
      rw [List.range'_concat, Nat.one_mul]
      unfold orbs
      rw [List.flatMap_append]
    have h3 : orbs (norb ++ cell) [norb.length + k] = List.range' (norb.sum + (cell.take k).sum) cell[k] := by
      unfold orbs
      rw [List.flatMap_singleton, List.getD_eq_getElem?_getD, List.getElem?_append_right (by omega), Nat.add_sub_cancel_left, List.getElem?_eq_getElem hk', Option.getD_some,
        List.take_append, Nat.add_sub_cancel_left, List.sum_append, List.take_of_length_le (by omega), List.range'_eq_map_range]
    rw [h2, h1, h3, List.take_add_one, List.getElem?_eq_getElem hk', List.sum_append]
    simp only [Option.toList_some, List.sum_cons, List.sum_nil, Nat.add_zero]
    have := List.range'_append (s := norb.sum) (m := (cell.take k).sum) (n := cell[k]) (step := 1)
    rw [Nat.one_mul] at this
    exact this

variable {l : Fin T.N} {cell : List ℕ} {k : ℕ}

theorem CellSites.le (hc : CellSites T l cell k) : (T.lead l).m ≤ (T.lead l).n := by
  rw [← hc.size, ← hc.width]
  exact (List.take_sublist k cell).sum_le_sum (fun _ _ => Nat.zero_le _)

theorem addCell_iface_same (hT : T.Ok) {x : Fin T.N} (hx : x ≠ l) : (T.addCell l cell k).iface x = T.iface x := by
  change orbs (T.norb ++ cell) (if x = l then _ else _) = orbs T.norb _
  rw [if_neg hx]
  exact orbs_append (hT.iface x)

theorem addCell_iface_new (hT : T.Ok) (hc : CellSites T l cell k) : (T.addCell l cell k).iface l = List.range' T.ham.rows (T.lead l).m := by
  change orbs (T.norb ++ cell) (if l = l then _ else _) = _
  rw [if_pos rfl, orbs_new T.norb hc.interface, hc.width, hT.size]

theorem iface_lt (hT : T.Ok) (x : Fin T.N) {p α : ℕ} (h : (T.iface x)[p]? = some α) : α < T.ham.rows := by
  rw [hT.size]
  exact orbs_lt (hT.iface x) α (List.mem_of_getElem? h)

theorem fromLead_high (hT : T.Ok) (x : Fin T.N) (f : Fin (T.lead x).m → ℂ) {α : ℕ} (hα : T.ham.rows ≤ α) : T.fromLead x f α = 0 := by
  unfold Open.fromLead
  refine Finset.sum_eq_zero fun p _ => if_neg fun h => ?_
  have := iface_lt hT x h
  omega

theorem addCell_ok (hT : T.Ok) (hc : CellSites T l cell k) : (T.addCell l cell k).Ok := by
  refine ⟨rfl, ?_, ?_, ?_, ?_⟩
  · change T.ham.rows + (T.lead l).n = (T.norb ++ cell).sum
    rw [List.sum_append, hT.size, hc.size]
  · intro α hα β hβ
    change α < T.ham.rows + (T.lead l).n at hα
    change β < T.ham.rows + (T.lead l).n at hβ
    change star (T.cellHam l α β) = T.cellHam l β α
    have hs : ∀ (f : Fin (T.lead l).m → ℂ) (α : ℕ), star (T.fromLead l f α) = T.fromLead l (fun p => star (f p)) α := fun f α => kap_fromLead true l f α
    unfold Open.cellHam
    by_cases h1 : α < T.ham.rows <;> by_cases h2 : β < T.ham.rows
    · rw [if_pos h1, if_pos h2, if_pos h2, if_pos h1]
      exact hT.herm α h1 β h2
    · rw [if_pos h1, if_neg h2, if_neg h2, if_pos h1, hs]
      simp only [star_star]
    · rw [if_neg h1, if_pos h2, if_pos h2, if_neg h1, hs]
    · rw [if_neg h1, if_neg h2, if_neg h2, if_neg h1]
      have e1 : α - T.ham.rows < (T.lead l).n := by omega
      have e2 : β - T.ham.rows < (T.lead l).n := by omega
      have e3 := toMat_val (T.lead l).ham ⟨_, e1⟩ ⟨_, e2⟩
      have e4 := toMat_val (T.lead l).ham ⟨_, e2⟩ ⟨_, e1⟩
      simp only at e3 e4
      rw [e3, e4]
      exact hc.herm.apply _ _
  · intro x i hi
    change Fin T.N at x
    change i ∈ (if x = l then List.range' T.norb.length k else (T.lead x).interface) at hi
    change i < (T.norb ++ cell).length
    rw [List.length_append]
    have := hc.interface
    by_cases hx : x = l
    · rw [if_pos hx, List.mem_range'_1] at hi
      omega
    · rw [if_neg hx] at hi
      have := hT.iface x i hi
      omega
  · intro x
    change Fin T.N at x
    by_cases hx : x = l
    · subst hx
      rw [addCell_iface_new hT hc, List.length_range']
    · rw [addCell_iface_same hT hx]
      exact hT.width x

/-! ### Waves -/

/-- The wave in the larger scattering region. -/
noncomputable def extRegion (T : Open) (l : Fin T.N) (ψ : ℕ → ℂ) (v : Fin (T.lead l).n → ℂ) (α : ℕ) : ℂ :=
  if α < T.ham.rows then ψ α else if h : α - T.ham.rows < (T.lead l).n then v ⟨α - T.ham.rows, h⟩ else 0

/-- The wave in the shorter lead. -/
def shiftWave (T : Open) (l : Fin T.N) (Ψ : (x : Fin T.N) → ℕ → Fin (T.lead x).n → ℂ) (x : Fin T.N) (j : ℕ) : Fin (T.lead x).n → ℂ := Ψ x (j + if x = l then 1 else 0)

theorem ext_low (ψ : ℕ → ℂ) (v : Fin (T.lead l).n → ℂ) {α : ℕ} (h : α < T.ham.rows) : extRegion T l ψ v α = ψ α := if_pos h

theorem ext_high (ψ : ℕ → ℂ) (v : Fin (T.lead l).n → ℂ) (i : Fin (T.lead l).n) : extRegion T l ψ v (T.ham.rows + i) = v i := by
  unfold extRegion
  rw [if_neg (by omega), dif_pos (by omega)]
  congr 1
  exact Fin.ext (by simp)

theorem amp_same (hT : T.Ok) {x : Fin T.N} (hx : x ≠ l) (ψ : ℕ → ℂ) (v : Fin (T.lead l).n → ℂ) : (T.addCell l cell k).amp (extRegion T l ψ v) x = T.amp ψ x := by
  ext p
  change extRegion T l ψ v (((T.addCell l cell k).iface x).getD p 0) = ψ ((T.iface x).getD p 0)
  rw [addCell_iface_same hT hx]
  refine ext_low ψ v ?_
  have hp : (p : ℕ) < (T.iface x).length := by
    rw [hT.width x]
    exact p.2
  rw [List.getD_eq_getElem?_getD, List.getElem?_eq_getElem hp, Option.getD_some]
  exact iface_lt hT x (List.getElem?_eq_getElem hp)

theorem amp_new (hT : T.Ok) (hc : CellSites T l cell k) (ψ : ℕ → ℂ) (v : Fin (T.lead l).n → ℂ) :
    (T.addCell l cell k).amp (extRegion T l ψ v) l = fun p : Fin (T.lead l).m => v (Fin.castLE hc.le p) := by
  ext p
  change Fin (T.lead l).m at p
  change extRegion T l ψ v (((T.addCell l cell k).iface l).getD p 0) = _
  rw [addCell_iface_new hT hc, List.getD_eq_getElem?_getD, List.getElem?_eq_getElem (by rw [List.length_range']; exact p.2), Option.getD_some, List.getElem_range', Nat.one_mul]
  exact ext_high ψ v (Fin.castLE hc.le p)

theorem fromLead_same (hT : T.Ok) {x : Fin T.N} (hx : x ≠ l) (f : Fin (T.lead x).m → ℂ) (α : ℕ) : (T.addCell l cell k).fromLead x f α = T.fromLead x f α := by
  unfold Open.fromLead
  rw [addCell_iface_same hT hx]

theorem fromLead_new_low (hT : T.Ok) (hc : CellSites T l cell k) (f : Fin (T.lead l).m → ℂ) {α : ℕ} (hα : α < T.ham.rows) : (T.addCell l cell k).fromLead l f α = 0 := by
  unfold Open.fromLead
  refine Finset.sum_eq_zero fun p _ => if_neg fun h => ?_
  rw [addCell_iface_new hT hc] at h
  have := List.mem_of_getElem? h
  rw [List.mem_range'_1] at this
  omega

theorem fromLead_new_high (hT : T.Ok) (hc : CellSites T l cell k) (w : Fin (T.lead l).n → ℂ) (i : Fin (T.lead l).n) :
    (T.addCell l cell k).fromLead l ((T.lead l).hopᴴ *ᵥ w) (T.ham.rows + i) = ((padHop (T.lead l).hop)ᴴ *ᵥ w) i := by
  have e1 : (T.addCell l cell k).fromLead l ((T.lead l).hopᴴ *ᵥ w) (T.ham.rows + i) =
      ∑ p : Fin (T.lead l).m, if (p : ℕ) = i then ((T.lead l).hopᴴ *ᵥ w) p else 0 := by
    unfold Open.fromLead
    refine Finset.sum_congr rfl fun p _ => ?_
    change Fin (T.lead l).m at p
    have e2 : ((T.addCell l cell k).iface l)[(p : ℕ)]? = some (T.ham.rows + p) := by
      rw [addCell_iface_new hT hc, List.getElem?_eq_getElem (by rw [List.length_range']; exact p.2), List.getElem_range', Nat.one_mul]
    rw [e2]
    by_cases hp : (p : ℕ) = i
    · rw [if_pos hp, if_pos (by rw [hp])]
    · rw [if_neg hp, if_neg (fun h => hp (by have := Option.some.inj h; omega))]
  rw [e1]
  by_cases hi : (i : ℕ) < (T.lead l).m
  · rw [Finset.sum_eq_single (⟨i, hi⟩ : Fin (T.lead l).m) (fun p _ hp => if_neg fun h => hp (Fin.ext h)) (fun h => absurd (Finset.mem_univ _) h), if_pos rfl]
    simp only [Matrix.mulVec, dotProduct, conjTranspose_apply, padHop, of_apply, dif_pos hi]
  · rw [Finset.sum_eq_zero fun (p : Fin (T.lead l).m) _ => if_neg (fun h : (p : ℕ) = i => hi (h ▸ p.2))]
    simp only [Matrix.mulVec, dotProduct, conjTranspose_apply, padHop, of_apply, dif_neg hi, star_zero, zero_mul, Finset.sum_const_zero]

/-- The hopping from the interface is the hopping between cells. -/
theorem padHop_mulVec {n m : ℕ} (hop : Matrix (Fin n) (Fin m) ℂ) (hmn : m ≤ n) (v : Fin n → ℂ) : padHop hop *ᵥ v = hop *ᵥ fun p => v (Fin.castLE hmn p) := by
  ext i
  simp only [Matrix.mulVec, dotProduct, padHop, of_apply]
  have h1 : ∀ j : Fin n, (if h : (j : ℕ) < m then hop i ⟨j, h⟩ else 0) * v j = ∑ p : Fin m, if (p : ℕ) = j then hop i p * v j else 0 := by
    intro j
    by_cases hj : (j : ℕ) < m
    · rw [dif_pos hj, Finset.sum_eq_single (⟨j, hj⟩ : Fin m) (fun p _ hp => if_neg fun h => hp (Fin.ext h)) (fun h => absurd (Finset.mem_univ _) h), if_pos rfl]
    · rw [dif_neg hj, zero_mul, Finset.sum_eq_zero fun (p : Fin m) _ => if_neg (fun h : (p : ℕ) = j => hj (h ▸ p.2))]
  rw [Finset.sum_congr rfl fun j _ => h1 j, Finset.sum_comm]
  refine Finset.sum_congr rfl fun p _ => ?_
  rw [Finset.sum_eq_single (Fin.castLE hmn p) (fun j _ hj => if_neg fun h => hj (Fin.ext h.symm)) (fun h => absurd (Finset.mem_univ _) h)]
  exact if_pos rfl

/-- A sum over the orbitals of the larger region. -/
theorem sum_ext (T : Open) (l : Fin T.N) (f : ℕ → ℂ) : ∑ β ∈ range (T.ham.rows + (T.lead l).n), f β = (∑ β ∈ range T.ham.rows, f β) + ∑ i : Fin (T.lead l).n, f (T.ham.rows + i) := by
  rw [Finset.sum_range_add, Finset.sum_range (fun i => f (T.ham.rows + i))]

/-- The sum over the leads, of which only `l` is different. -/
theorem sum_leads (l : Fin T.N) (f : Fin T.N → ℂ) : ∑ x, f x = f l + ∑ x ∈ univ.erase l, f x := (Finset.add_sum_erase _ _ (Finset.mem_univ l)).symm

theorem cellHam_row_low (ψ : ℕ → ℂ) (v : Fin (T.lead l).n → ℂ) {α : ℕ} (hα : α < T.ham.rows) :
    ∑ β ∈ range (T.ham.rows + (T.lead l).n), T.cellHam l α β * extRegion T l ψ v β = (∑ β ∈ range T.ham.rows, T.ham.val α β * ψ β) + T.fromLead l ((T.lead l).hopᴴ *ᵥ v) α := by
  rw [sum_ext]
  congr 1
  · refine Finset.sum_congr rfl fun β hβ => ?_
    rw [ext_low ψ v (Finset.mem_range.mp hβ), Open.cellHam, if_pos hα, if_pos (Finset.mem_range.mp hβ)]
  · have e1 : ∀ i : Fin (T.lead l).n, T.cellHam l α (T.ham.rows + i) * extRegion T l ψ v (T.ham.rows + i) = T.fromLead l (fun p => star ((T.lead l).hop i p) * v i) α := by
      intro i
      rw [ext_high, Open.cellHam, if_pos hα, if_neg (by omega), Nat.add_sub_cancel_left]
      simp only [toMat_val]
      unfold Open.fromLead
      rw [Finset.sum_mul]
      refine Finset.sum_congr rfl fun p _ => ?_
      split
      · rfl
      · rw [zero_mul]
    rw [Finset.sum_congr rfl fun i _ => e1 i]
    unfold Open.fromLead
    rw [Finset.sum_comm]
    refine Finset.sum_congr rfl fun p _ => ?_
    by_cases hp : (T.iface l)[(p : ℕ)]? = some α
    · simp only [if_pos hp]
      rfl
    · simp only [if_neg hp, Finset.sum_const_zero]

theorem cellHam_row_high (hT : T.Ok) (ψ : ℕ → ℂ) (v : Fin (T.lead l).n → ℂ) (i : Fin (T.lead l).n) :
    ∑ β ∈ range (T.ham.rows + (T.lead l).n), T.cellHam l (T.ham.rows + i) β * extRegion T l ψ v β = ((T.lead l).hop *ᵥ T.amp ψ l) i + ((T.lead l).ham *ᵥ v) i := by
  rw [sum_ext]
  congr 1
  · have e1 : ∀ β ∈ range T.ham.rows, T.cellHam l (T.ham.rows + i) β * extRegion T l ψ v β = ψ β * T.fromLead l (fun p => (T.lead l).hop i p) β := by
      intro β hβ
      rw [ext_low ψ v (Finset.mem_range.mp hβ), Open.cellHam, if_neg (by omega), if_pos (Finset.mem_range.mp hβ), Nat.add_sub_cancel_left, mul_comm]
      simp only [toMat_val]
    rw [Finset.sum_congr rfl e1, sum_fromLead hT ψ]
    exact Finset.sum_congr rfl fun p _ => mul_comm _ _
  · refine Finset.sum_congr rfl fun j _ => ?_
    rw [ext_high, Open.cellHam, if_neg (by omega), if_neg (by omega), Nat.add_sub_cancel_left, Nat.add_sub_cancel_left, toMat_val]

/-- C191: the waves of the two systems are the same. -/
theorem C191_waves (hT : T.Ok) (hc : CellSites T l cell k) (ψ : ℕ → ℂ) (Ψ : (x : Fin T.N) → ℕ → Fin (T.lead x).n → ℂ) :
    InfWave T E ψ Ψ ↔ InfWave (T.addCell l cell k) E (extRegion T l ψ (Ψ l 0)) (shiftWave T l Ψ) := by
  have hl0 : ∀ j, shiftWave T l Ψ l j = Ψ l (j + 1) := fun j => by rw [shiftWave, if_pos rfl]
  have hx0 : ∀ x, x ≠ l → shiftWave T l Ψ x = Ψ x := fun x hx => by
    funext j
    rw [shiftWave, if_neg hx, add_zero]
  -- the equations in the region
  have hlow : ∀ α < T.ham.rows, ((∑ β ∈ range (T.addCell l cell k).ham.rows, (T.addCell l cell k).ham.val α β * extRegion T l ψ (Ψ l 0) β) - E * extRegion T l ψ (Ψ l 0) α +
      ∑ x : Fin T.N, (T.addCell l cell k).fromLead x ((T.lead x).hopᴴ *ᵥ shiftWave T l Ψ x 0) α) =
      (∑ β ∈ range T.ham.rows, T.ham.val α β * ψ β) - E * ψ α + ∑ x, T.fromLead x ((T.lead x).hopᴴ *ᵥ Ψ x 0) α := by
    intro α hα
    have e1 : ∑ β ∈ range (T.addCell l cell k).ham.rows, (T.addCell l cell k).ham.val α β * extRegion T l ψ (Ψ l 0) β = _ := cellHam_row_low ψ (Ψ l 0) hα
    have e2 : ∑ x ∈ univ.erase l, (T.addCell l cell k).fromLead x ((T.lead x).hopᴴ *ᵥ shiftWave T l Ψ x 0) α = ∑ x ∈ univ.erase l, T.fromLead x ((T.lead x).hopᴴ *ᵥ Ψ x 0) α := by
      refine Finset.sum_congr rfl fun x hx => ?_
      have hx' := Finset.ne_of_mem_erase hx
      rw [fromLead_same hT hx', hx0 x hx']
    rw [e1, ext_low ψ _ hα, sum_leads l fun x => (T.addCell l cell k).fromLead x ((T.lead x).hopᴴ *ᵥ shiftWave T l Ψ x 0) α, fromLead_new_low hT hc _ hα, e2,
      sum_leads l fun x => T.fromLead x ((T.lead x).hopᴴ *ᵥ Ψ x 0) α]
    ring
  have hhigh : ∀ i : Fin (T.lead l).n, ((∑ β ∈ range (T.addCell l cell k).ham.rows, (T.addCell l cell k).ham.val (T.ham.rows + i) β * extRegion T l ψ (Ψ l 0) β) -
      E * extRegion T l ψ (Ψ l 0) (T.ham.rows + i) + ∑ x : Fin T.N, (T.addCell l cell k).fromLead x ((T.lead x).hopᴴ *ᵥ shiftWave T l Ψ x 0) (T.ham.rows + i)) =
      ((T.lead l).at E *ᵥ Ψ l 0 + (padHop (T.lead l).hop)ᴴ *ᵥ Ψ l 1 + (T.lead l).hop *ᵥ T.amp ψ l) i := by
    intro i
    have e1 : ∑ β ∈ range (T.addCell l cell k).ham.rows, (T.addCell l cell k).ham.val (T.ham.rows + i) β * extRegion T l ψ (Ψ l 0) β = _ := cellHam_row_high hT ψ (Ψ l 0) i
    have e2 : ∑ x ∈ univ.erase l, (T.addCell l cell k).fromLead x ((T.lead x).hopᴴ *ᵥ shiftWave T l Ψ x 0) (T.ham.rows + i) = 0 := by
      refine Finset.sum_eq_zero fun x hx => ?_
      rw [fromLead_same hT (Finset.ne_of_mem_erase hx)]
      exact fromLead_high hT x _ (by omega)
    rw [e1, ext_high, sum_leads l fun x => (T.addCell l cell k).fromLead x ((T.lead x).hopᴴ *ᵥ shiftWave T l Ψ x 0) (T.ham.rows + i), fromLead_new_high hT hc, e2, hl0]
    have e3 : (T.lead l).at E *ᵥ Ψ l 0 = (T.lead l).ham *ᵥ Ψ l 0 - (E : ℂ) • Ψ l 0 := by
      rw [PhysLead.at, Matrix.sub_mulVec, Matrix.smul_mulVec, Matrix.one_mulVec]
    rw [e3]
    simp only [Pi.add_apply, Pi.sub_apply, Pi.smul_apply, smul_eq_mul]
    ring
  -- the equations in the leads
  have hlead : ∀ x, x ≠ l → (LeadSolution ((T.lead x).at E) (T.lead x).hop ((T.addCell l cell k).amp (extRegion T l ψ (Ψ l 0)) x) (shiftWave T l Ψ x) ↔
      LeadSolution ((T.lead x).at E) (T.lead x).hop (T.amp ψ x) (Ψ x)) := by
    intro x hx
    have e1 : (T.addCell l cell k).amp (extRegion T l ψ (Ψ l 0)) x = T.amp ψ x := amp_same hT hx ψ (Ψ l 0)
    rw [hx0 x hx]
    exact iff_of_eq (congrArg (fun φ => LeadSolution ((T.lead x).at E) (T.lead x).hop φ (Ψ x)) e1)
  have hl1 : ∀ φ : Fin (T.lead l).m → ℂ, φ = (fun p => Ψ l 0 (Fin.castLE hc.le p)) → (LeadSolution ((T.lead l).at E) (T.lead l).hop φ (shiftWave T l Ψ l) ↔
      ∀ j, (T.lead l).at E *ᵥ Ψ l (j + 1) + (padHop (T.lead l).hop)ᴴ *ᵥ Ψ l (j + 2) + padHop (T.lead l).hop *ᵥ Ψ l j = 0) := by
    intro φ hφ
    have hh : (T.lead l).hop *ᵥ φ = padHop (T.lead l).hop *ᵥ Ψ l 0 := by rw [padHop_mulVec _ hc.le, hφ]
    constructor
    · intro hs j
      cases j with
      | zero =>
        have h1 := hs.first
        rw [hl0, hl0, hh] at h1
        exact h1
      | succ j =>
        have h1 := hs.bulk j
        rw [hl0, hl0, hl0] at h1
        exact h1
    · intro hb
      refine ⟨?_, fun j => ?_⟩
      · rw [hl0, hl0, hh]
        exact hb 0
      · rw [hl0, hl0, hl0]
        exact hb (j + 1)
  have hamp : ((T.addCell l cell k).amp (extRegion T l ψ (Ψ l 0)) l : Fin (T.lead l).m → ℂ) = fun p => Ψ l 0 (Fin.castLE hc.le p) := amp_new hT hc ψ (Ψ l 0)
  constructor
  · intro hw
    refine ⟨?_, fun x => ?_⟩
    · intro α hα
      change α < T.ham.rows + (T.lead l).n at hα
      by_cases h : α < T.ham.rows
      · exact (hlow α h).trans (hw.region α h)
      · obtain ⟨i, rfl⟩ := Nat.exists_eq_add_of_le (not_lt.mp h)
        exact (hhigh ⟨i, by omega⟩).trans (congrFun (hw.lead l).first _)
    · change Fin T.N at x
      by_cases hx : x = l
      · subst hx
        exact (hl1 _ hamp).mpr (hw.lead x).bulk
      · exact (hlead x hx).mpr (hw.lead x)
  · intro hw
    refine ⟨?_, fun x => ?_⟩
    · intro α hα
      exact (hlow α hα).symm.trans (hw.region α (lt_of_lt_of_le hα (Nat.le_add_right _ _)))
    · by_cases hx : x = l
      · subst hx
        refine ⟨?_, (hl1 _ hamp).mp (hw.lead x)⟩
        ext i
        exact (hhigh i).symm.trans (hw.region (T.ham.rows + i) (Nat.add_lt_add_left i.2 _))
      · exact (hlead x hx).mp (hw.lead x)

end Kwant.Scatt
