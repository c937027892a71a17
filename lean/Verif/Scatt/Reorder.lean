import Verif.Scatt.AddCell
import Verif.Scatt.Ex

/-!
C192: the order of the sites of the scattering region.
-/

set_option linter.unusedSectionVars false

namespace Kwant.Scatt
open Finset Complex Filter
open Matrix hiding mulVec
open Kwant.Leads hiding Modes
open Kwant.Solver hiding transmission LErr mulVec

variable {T : Open} {E : ℝ}

/-! ### Specification -/

/-- The number of orbital `k` of site `i`. -/
def orbNum (norb : List ℕ) (i k : ℕ) : ℕ := (norb.take i).sum + k

/-- Site `i` of `T` is site `σ i` of a system with the numbers of orbitals `norb` and the Hamiltonian `ham`. -/
structure Reordering (T : Open) (σ : ℕ → ℕ) (norb : List ℕ) (ham : System.Mat ℂ) : Prop where
  len : norb.length = T.norb.length
  lt : ∀ i < T.norb.length, σ i < T.norb.length
  inj : ∀ i < T.norb.length, ∀ j < T.norb.length, σ i = σ j → i = j
  norbs : ∀ i < T.norb.length, norb.getD (σ i) 0 = T.norb.getD i 0
  rows : ham.rows = T.ham.rows
  cols : ham.cols = T.ham.cols
  val : ∀ i < T.norb.length, ∀ j < T.norb.length, ∀ p < T.norb.getD i 0, ∀ q < T.norb.getD j 0, ham.val (orbNum norb (σ i) p) (orbNum norb (σ j) q) = T.ham.val (orbNum T.norb i p) (orbNum T.norb j q)

/-- The system with the other order of sites. -/
@[reducible] def Open.reorder (T : Open) (σ : ℕ → ℕ) (norb : List ℕ) (ham : System.Mat ℂ) : Open := T.withRegion ham norb fun x => (T.lead x).interface.map σ

/-- The modes do not change. -/
@[reducible] def LeadBasis.reorder {T : Open} (B : LeadBasis T) (σ : ℕ → ℕ) (norb : List ℕ) (ham : System.Mat ℂ) : LeadBasis (T.reorder σ norb ham) := ⟨B.M, B.sg⟩

/-! ### Orbitals -/

theorem take_sum_le {norb : List ℕ} {i j : ℕ} (hj : j ≤ norb.length) (h : i < j) : (norb.take i).sum + norb.getD i 0 ≤ (norb.take j).sum := by
  have h1 : (norb.take (i + 1)).sum = (norb.take i).sum + norb.getD i 0 := by
    rw [List.take_add_one, List.sum_append, List.getElem?_eq_getElem (by omega), List.getD_eq_getElem?_getD, List.getElem?_eq_getElem (by omega)]
    simp
  rw [← h1]
  exact (List.take_sublist_take_left h).sum_le_sum (fun _ _ => Nat.zero_le _)

theorem orbNum_inj {norb : List ℕ} {i j p q : ℕ} (hi : i < norb.length) (hj : j < norb.length) (hp : p < norb.getD i 0) (hq : q < norb.getD j 0) (h : orbNum norb i p = orbNum norb j q) :
    i = j ∧ p = q := by
  unfold orbNum at h
  rcases Nat.lt_trichotomy i j with hij | hij | hij
  · have := take_sum_le (le_of_lt hj) hij
    omega
  · subst hij
    exact ⟨rfl, by omega⟩
  · have := take_sum_le (le_of_lt hi) hij
    omega

theorem orbNum_lt {norb : List ℕ} {i p : ℕ} (hi : i < norb.length) (hp : p < norb.getD i 0) : orbNum norb i p < norb.sum := by
  have h := take_sum_le (le_refl norb.length) hi
  rw [List.take_length] at h
  unfold orbNum
  omega

theorem orbNum_exists {norb : List ℕ} {α : ℕ} (h : α < norb.sum) : ∃ i p, i < norb.length ∧ p < norb.getD i 0 ∧ α = orbNum norb i p := by
  induction norb generalizing α with
  | nil => simp at h
  | cons n l ih =>
    rw [List.sum_cons] at h
    by_cases hα : α < n
    · exact ⟨0, α, by simp, by simpa using hα, by simp [orbNum]⟩
    · obtain ⟨i, p, h1, h2, h3⟩ := ih (α := α - n) (by omega)
      refine ⟨i + 1, p, by simpa using h1, by simpa using h2, ?_⟩
      unfold orbNum at h3 ⊢
      rw [List.take_succ_cons, List.sum_cons]
      omega

open Classical in
/-- Where the orbitals go. -/
noncomputable def orbMap (norb norb' : List ℕ) (σ : ℕ → ℕ) (α : ℕ) : ℕ :=
  if h : ∃ i p, i < norb.length ∧ p < norb.getD i 0 ∧ α = orbNum norb i p then orbNum norb' (σ h.choose) h.choose_spec.choose else 0

theorem orbMap_orbNum {norb norb' : List ℕ} {σ : ℕ → ℕ} {i p : ℕ} (hi : i < norb.length) (hp : p < norb.getD i 0) : orbMap norb norb' σ (orbNum norb i p) = orbNum norb' (σ i) p := by
  have h : ∃ i' p', i' < norb.length ∧ p' < norb.getD i' 0 ∧ orbNum norb i p = orbNum norb i' p' := ⟨i, p, hi, hp, rfl⟩
  unfold orbMap
  rw [dif_pos h]
  obtain ⟨h1, h2, h3⟩ := h.choose_spec.choose_spec
  obtain ⟨e1, e2⟩ := orbNum_inj hi h1 hp h2 h3
  exact congrArg₂ (fun i p => orbNum norb' (σ i) p) e1.symm e2.symm

variable {σ : ℕ → ℕ} {norb : List ℕ} {ham : System.Mat ℂ}

theorem Reordering.sum (hR : Reordering T σ norb ham) : norb.sum = T.norb.sum := by
  have h1 : ∀ l : List ℕ, l.sum = ∑ i : Fin l.length, l.getD i 0 := by
    intro l
    conv_lhs => rw [← List.ofFn_getElem (xs := l), List.sum_ofFn]
    refine Finset.sum_congr rfl fun i _ => ?_
    rw [List.getD_eq_getElem?_getD, List.getElem?_eq_getElem i.2, Option.getD_some]
  have h2 : ∀ l : List ℕ, l.sum = ∑ i ∈ range l.length, l.getD i 0 := fun l => by rw [h1 l, Finset.sum_range]
  rw [h2 norb, h2 T.norb, hR.len]
  symm
  refine Finset.sum_nbij σ (fun i hi => Finset.mem_range.mpr (hR.lt i (Finset.mem_range.mp hi))) (fun i hi j hj h => hR.inj i (by simpa using hi) j (by simpa using hj) h) ?_
    (fun i hi => (hR.norbs i (Finset.mem_range.mp hi)).symm)
  exact Finset.surjOn_of_injOn_of_card_le σ (fun i hi => by simpa using hR.lt i (by simpa using hi)) (fun i hi j hj h => hR.inj i (by simpa using hi) j (by simpa using hj) h) (le_refl _)

/-- The map of the orbitals. -/
noncomputable def Reordering.f (_ : Reordering T σ norb ham) : ℕ → ℕ := orbMap T.norb norb σ

theorem Reordering.f_lt (hR : Reordering T σ norb ham) (hT : T.Ok) {α : ℕ} (hα : α < T.ham.rows) : hR.f α < T.ham.rows := by
  rw [hT.size] at hα ⊢
  obtain ⟨i, p, hi, hp, rfl⟩ := orbNum_exists hα
  rw [Reordering.f, orbMap_orbNum hi hp, ← hR.sum]
  exact orbNum_lt (by rw [hR.len]; exact hR.lt i hi) (by rw [hR.norbs i hi]; exact hp)

theorem Reordering.f_inj (hR : Reordering T σ norb ham) (hT : T.Ok) {α β : ℕ} (hα : α < T.ham.rows) (hβ : β < T.ham.rows) (h : hR.f α = hR.f β) : α = β := by
  rw [hT.size] at hα hβ
  obtain ⟨i, p, hi, hp, rfl⟩ := orbNum_exists hα
  obtain ⟨j, q, hj, hq, rfl⟩ := orbNum_exists hβ
  rw [Reordering.f, orbMap_orbNum hi hp, orbMap_orbNum hj hq] at h
  obtain ⟨e1, e2⟩ := orbNum_inj (by rw [hR.len]; exact hR.lt i hi) (by rw [hR.len]; exact hR.lt j hj) (by rw [hR.norbs i hi]; exact hp) (by rw [hR.norbs j hj]; exact hq) h
  rw [hR.inj i hi j hj e1, e2]

theorem Reordering.f_surj (hR : Reordering T σ norb ham) (hT : T.Ok) {γ : ℕ} (hγ : γ < T.ham.rows) : ∃ α < T.ham.rows, hR.f α = γ := by
  have h := Finset.surjOn_of_injOn_of_card_le (s := range T.ham.rows) (t := range T.ham.rows) hR.f (fun i hi => by simpa using hR.f_lt hT (by simpa using hi))
    (fun i hi j hj h => hR.f_inj hT (by simpa using hi) (by simpa using hj) h) (le_refl _)
  obtain ⟨α, hα, he⟩ := h (by simpa using hγ : γ ∈ ((range T.ham.rows : Finset ℕ) : Set ℕ))
  exact ⟨α, by simpa using hα, he⟩

theorem Reordering.sum_f (hR : Reordering T σ norb ham) (hT : T.Ok) (g : ℕ → ℂ) : ∑ β ∈ range T.ham.rows, g (hR.f β) = ∑ γ ∈ range T.ham.rows, g γ := by
  refine Finset.sum_nbij hR.f (fun i hi => Finset.mem_range.mpr (hR.f_lt hT (Finset.mem_range.mp hi))) (fun i hi j hj h => hR.f_inj hT (by simpa using hi) (by simpa using hj) h) ?_ (fun i _ => rfl)
  intro γ hγ
  obtain ⟨α, hα, he⟩ := hR.f_surj hT (by simpa using hγ : γ < T.ham.rows)
  exact ⟨α, by simpa using hα, he⟩

theorem Reordering.ham_f (hR : Reordering T σ norb ham) (hT : T.Ok) {α β : ℕ} (hα : α < T.ham.rows) (hβ : β < T.ham.rows) : ham.val (hR.f α) (hR.f β) = T.ham.val α β := by
  rw [hT.size] at hα hβ
  obtain ⟨i, p, hi, hp, rfl⟩ := orbNum_exists hα
  obtain ⟨j, q, hj, hq, rfl⟩ := orbNum_exists hβ
  rw [Reordering.f, orbMap_orbNum hi hp, orbMap_orbNum hj hq]
  exact hR.val i hi j hj p hp q hq

theorem Reordering.iface (hR : Reordering T σ norb ham) (hT : T.Ok) (x : Fin T.N) : (T.reorder σ norb ham).iface x = (T.iface x).map hR.f := by
  change orbs norb ((T.lead x).interface.map σ) = (orbs T.norb (T.lead x).interface).map hR.f
  unfold orbs
  rw [List.flatMap_map, List.map_flatMap]
  refine List.flatMap_congr fun i hi => ?_
  have hi' := hT.iface x i hi
  rw [hR.norbs i hi', List.map_map]
  refine List.map_congr_left fun p hp => ?_
  exact (orbMap_orbNum hi' (List.mem_range.mp hp)).symm

theorem reorder_ok (hT : T.Ok) (hR : Reordering T σ norb ham) : (T.reorder σ norb ham).Ok := by
  refine ⟨?_, ?_, ?_, ?_, ?_⟩
  · change ham.cols = ham.rows
    rw [hR.cols, hR.rows, hT.square]
  · change ham.rows = norb.sum
    rw [hR.rows, hR.sum, hT.size]
  · intro α hα β hβ
    change α < ham.rows at hα
    change β < ham.rows at hβ
    change star (ham.val α β) = ham.val β α
    rw [hR.rows] at hα hβ
    obtain ⟨α, hα', rfl⟩ := hR.f_surj hT hα
    obtain ⟨β, hβ', rfl⟩ := hR.f_surj hT hβ
    rw [hR.ham_f hT hα' hβ', hR.ham_f hT hβ' hα']
    exact hT.herm α hα' β hβ'
  · intro x i hi
    change i ∈ (T.lead x).interface.map σ at hi
    change i < norb.length
    obtain ⟨j, hj, rfl⟩ := List.mem_map.mp hi
    rw [hR.len]
    exact hR.lt j (hT.iface x j hj)
  · intro x
    rw [hR.iface hT, List.length_map]
    exact hT.width x

/-! ### Waves -/

theorem Reordering.amp (hR : Reordering T σ norb ham) (hT : T.Ok) (ψ : ℕ → ℂ) (x : Fin T.N) : T.amp (fun α => ψ (hR.f α)) x = (T.reorder σ norb ham).amp ψ x := by
  ext p
  change ψ (hR.f ((T.iface x).getD p 0)) = ψ (((T.reorder σ norb ham).iface x).getD p 0)
  have hp : (p : ℕ) < (T.iface x).length := by
    rw [hT.width x]
    exact p.2
  rw [hR.iface hT, List.getD_eq_getElem?_getD, List.getD_eq_getElem?_getD, List.getElem?_map, List.getElem?_eq_getElem hp, Option.map_some, Option.getD_some, Option.getD_some]

theorem Reordering.fromLead (hR : Reordering T σ norb ham) (hT : T.Ok) (x : Fin T.N) (g : Fin (T.lead x).m → ℂ) {α : ℕ} (hα : α < T.ham.rows) :
    (T.reorder σ norb ham).fromLead x g (hR.f α) = T.fromLead x g α := by
  unfold Open.fromLead
  refine Finset.sum_congr rfl fun p _ => ?_
  have h1 : ((T.reorder σ norb ham).iface x)[(p : ℕ)]? = some (hR.f α) ↔ (T.iface x)[(p : ℕ)]? = some α := by
    rw [hR.iface hT, List.getElem?_map]
    constructor
    · intro h
      obtain ⟨β, hβ, he⟩ := Option.map_eq_some_iff.mp h
      rw [hβ, hR.f_inj hT (iface_lt hT x hβ) hα he]
    · intro h
      rw [h, Option.map_some]
  by_cases h : (T.iface x)[(p : ℕ)]? = some α
  · rw [if_pos h, if_pos (h1.mpr h)]
  · rw [if_neg h, if_neg fun h' => h (h1.mp h')]

/-- C192: the waves of the two systems are the same. -/
theorem C192_waves (hT : T.Ok) (hR : Reordering T σ norb ham) (ψ : ℕ → ℂ) (Ψ : (x : Fin T.N) → ℕ → Fin (T.lead x).n → ℂ) :
    InfWave (T.reorder σ norb ham) E ψ Ψ ↔ InfWave T E (fun α => ψ (hR.f α)) Ψ := by
  have hreg : ∀ α < T.ham.rows, (∑ β ∈ range (T.reorder σ norb ham).ham.rows, (T.reorder σ norb ham).ham.val (hR.f α) β * ψ β) - E * ψ (hR.f α) +
      (∑ x : Fin T.N, (T.reorder σ norb ham).fromLead x ((T.lead x).hopᴴ *ᵥ Ψ x 0) (hR.f α)) =
      (∑ β ∈ range T.ham.rows, T.ham.val α β * ψ (hR.f β)) - E * ψ (hR.f α) + ∑ x, T.fromLead x ((T.lead x).hopᴴ *ᵥ Ψ x 0) α := by
    intro α hα
    have e1 : ∑ β ∈ range (T.reorder σ norb ham).ham.rows, (T.reorder σ norb ham).ham.val (hR.f α) β * ψ β = ∑ β ∈ range T.ham.rows, T.ham.val α β * ψ (hR.f β) := by
      change ∑ β ∈ range ham.rows, ham.val (hR.f α) β * ψ β = _
      rw [hR.rows, ← hR.sum_f hT fun γ => ham.val (hR.f α) γ * ψ γ]
      refine Finset.sum_congr rfl fun β hβ => ?_
      rw [hR.ham_f hT hα (Finset.mem_range.mp hβ)]
    rw [e1, Finset.sum_congr rfl fun x _ => hR.fromLead hT x ((T.lead x).hopᴴ *ᵥ Ψ x 0) hα]
  constructor
  · intro hw
    refine ⟨fun α hα => ?_, fun x => ?_⟩
    · exact (hreg α hα).symm.trans (hw.region (hR.f α) (by change _ < ham.rows; rw [hR.rows]; exact hR.f_lt hT hα))
    · rw [hR.amp hT]
      exact hw.lead x
  · intro hw
    refine ⟨fun α hα => ?_, fun x => ?_⟩
    · change α < ham.rows at hα
      rw [hR.rows] at hα
      obtain ⟨α, hα', rfl⟩ := hR.f_surj hT hα
      exact (hreg α hα').trans (hw.region α hα')
    · have h1 := hw.lead x
      rw [hR.amp hT] at h1
      exact h1

/-- C192: the bound states are the same. -/
theorem C192_bound (hT : T.Ok) (hR : Reordering T σ norb ham) (hn : NoBoundState T E) : NoBoundState (T.reorder σ norb ham) E := by
  intro ψ Ψ hw hd
  obtain ⟨h1, h2⟩ := hn _ _ ((C192_waves hT hR ψ Ψ).mp hw) hd
  refine ⟨fun α hα => ?_, h2⟩
  change α < ham.rows at hα
  rw [hR.rows] at hα
  obtain ⟨α, hα', rfl⟩ := hR.f_surj hT hα
  exact h1 α hα'

/-- C192: the scattering matrix does not depend on the order of the sites. -/
theorem C192_smatrix (hT : T.Ok) (hR : Reordering T σ norb ham) {B : LeadBasis T} {S : FullS} : IsSmatrix E (B.reorder σ norb ham) S ↔ IsSmatrix E B S := by
  constructor
  · intro h y b hb
    obtain ⟨ψ, Ψ, hw⟩ := h y b hb
    exact ⟨_, Ψ, (C192_waves hT hR ψ Ψ).mp hw.1, hw.2⟩
  · intro h y b hb
    obtain ⟨ψ, Ψ, hw⟩ := h y b hb
    -- the wave with the other order of sites
    let ψ' : ℕ → ℂ := fun γ => ∑ α ∈ range T.ham.rows, if hR.f α = γ then ψ α else 0
    have e1 : ∀ α < T.ham.rows, ψ' (hR.f α) = ψ α := by
      intro α hα
      change ∑ β ∈ range T.ham.rows, (if hR.f β = hR.f α then ψ β else 0) = ψ α
      rw [Finset.sum_eq_single α, if_pos rfl]
      · intro β hβ hne
        exact if_neg fun h => hne (hR.f_inj hT (Finset.mem_range.mp hβ) hα h)
      · intro h
        exact absurd (Finset.mem_range.mpr hα) h
    refine ⟨ψ', Ψ, (C192_waves hT hR ψ' Ψ).mpr ⟨fun α hα => ?_, fun x => ?_⟩, hw.2⟩
    · have h1 := hw.1.region α hα
      simp only [e1 α hα]
      rw [← h1]
      congr 2
      refine Finset.sum_congr rfl fun β hβ => ?_
      rw [e1 β (Finset.mem_range.mp hβ)]
    · have h1 := hw.1.lead x
      have h2 : T.amp (fun α => ψ' (hR.f α)) x = T.amp ψ x := by
        ext p
        refine e1 _ ?_
        have hp : (p : ℕ) < (T.iface x).length := by
          rw [hT.width x]
          exact p.2
        rw [List.getD_eq_getElem?_getD, List.getElem?_eq_getElem hp, Option.getD_some]
        exact iface_lt hT x (List.getElem?_eq_getElem hp)
      rw [h2]
      exact h1

/-! ### Example -/

/-- Two sites with different energies between two leads. -/
noncomputable def roOpen : Open := ⟨⟨2, 2, fun α β => if α = β then (α : ℂ) else 1⟩, [1, 1], 2, fun _ => ⟨2, 2, 0, trHop, [0, 1], some trProj, trSym⟩⟩

/-- The Hamiltonian with the sites exchanged. -/
noncomputable def roHam : System.Mat ℂ := ⟨2, 2, fun α β => if α = β then 1 - (α : ℂ) else 1⟩

theorem roOpen_ok : roOpen.Ok := by
  refine ⟨rfl, rfl, ?_, ?_, fun l => rfl⟩
  · intro α _ β _
    change star (if α = β then (α : ℂ) else 1) = if β = α then (β : ℂ) else 1
    by_cases h : α = β
    · subst h
      simp
    · rw [if_neg h, if_neg (Ne.symm h), star_one]
  · intro l i hi
    change i ∈ [0, 1] at hi
    change i < 2
    simp at hi
    omega

theorem ro_noBound : NoBoundState roOpen 0 := by
  intro ψ Ψ hw hd
  have h : ∀ l : Fin roOpen.N, roOpen.amp ψ l = 0 ∧ ∀ j, Ψ l j = 0 := by
    intro l
    have h1 := hw.lead l
    have e : (roOpen.lead l).at 0 = (0 : Matrix (Fin 2) (Fin 2) ℂ) := exAt l
    rw [e] at h1
    exact ex_lead h1 (hd l)
  refine ⟨?_, fun l => (h l).2⟩
  intro α hα
  have h1 := (h (0 : Fin 2)).1
  change α < 2 at hα
  have h2 := congrFun h1 (⟨α, hα⟩ : Fin 2)
  interval_cases α
  · exact h2
  · exact h2

/-- C192: the example meets the hypotheses. -/
theorem C192_example : ∃ _ : Reordering roOpen (fun i => 1 - i) [1, 1] roHam, roOpen.Ok ∧ ∃ (B : LeadBasis roOpen) (S : FullS), BasisOk 0 B ∧ IsSmatrix 0 B S ∧
    IsSmatrix 0 (B.reorder (fun i => 1 - i) [1, 1] roHam) S := by
  have hR : Reordering roOpen (fun i => 1 - i) [1, 1] roHam := by
    refine ⟨rfl, ?_, ?_, ?_, rfl, rfl, ?_⟩
    · intro i hi
      change 1 - i < 2
      omega
    · intro i hi j hj h
      change i < 2 at hi
      change j < 2 at hj
      change 1 - i = 1 - j at h
      omega
    · intro i hi
      change i < 2 at hi
      interval_cases i <;> rfl
    · intro i hi j hj p hp q hq
      change i < 2 at hi
      change j < 2 at hj
      change p < ([1, 1] : List ℕ).getD i 0 at hp
      change q < ([1, 1] : List ℕ).getD j 0 at hq
      change (if orbNum [1, 1] (1 - i) p = orbNum [1, 1] (1 - j) q then 1 - (orbNum [1, 1] (1 - i) p : ℂ) else 1) =
        if orbNum [1, 1] i p = orbNum [1, 1] j q then (orbNum [1, 1] i p : ℂ) else 1
      interval_cases i <;> interval_cases j <;> simp at hp hq <;> subst hp hq <;> simp [orbNum]
  have hne : trHop ≠ 0 := by
    intro h
    have := congrFun (congrFun h 0) 0
    simp [trHop] at this
  obtain ⟨M, hM⟩ : ∃ M, Computed exM roOpen 0 M := exComputed
  obtain ⟨_, _, _, _, _, sg, _, hB, S, hS⟩ := C116_succeeds roOpen_ok (exLeads : LeadsOk exM roOpen 0) hM ro_noBound (fun l => by change [0, 1] ≠ []; simp) (fun l => hne) (fun _ => 0)
    (o := [0, 1]) (i := [0, 1]) (by simp) (by simp) (by simp) (by simp) (by
      intro l hl
      change l < 2
      simp at hl
      omega) true
  exact ⟨hR, roOpen_ok, ⟨M, sg⟩, S, hB, hS, (C192_smatrix roOpen_ok hR).mpr hS⟩

end Kwant.Scatt
