import Verif.Gauge.CompositeModel
import Mathlib.Data.Finset.Card

/-!
# The magnetic gauge of a system with leads: the extended scattering region
-/
set_option linter.unusedSectionVars false

namespace Kwant.Gauge
open Kwant.Dijkstra Complex

variable {s : CSyst}

/-! ## Indices of the extended region -/

theorem start_succ (s : CSyst) {p : ℕ} (hp : p < s.leads.length) : s.start (p + 1) = s.start p + (s.lead p).c := by
  unfold CSyst.start CSyst.lead
  rw [List.take_add_one, List.getElem?_eq_getElem hp, List.getD_eq_getElem?_getD, List.getElem?_eq_getElem hp]
  simp only [Option.toList_some, List.map_append, List.sum_append, List.map_cons, List.map_nil, List.sum_cons, List.sum_nil,
    Option.getD_some]
  omega

theorem start_mono (s : CSyst) {p q : ℕ} (h : p ≤ q) : s.start p ≤ s.start q := by
  have step : ∀ p, s.start p ≤ s.start (p + 1) := by
    intro p
    by_cases hp : p < s.leads.length
    · rw [start_succ s hp]; omega
    · unfold CSyst.start
      rw [List.take_of_length_le (by omega), List.take_of_length_le (by omega)]
  induction q, h using Nat.le_induction with
  | base => exact le_rfl
  | succ q _ ih => exact ih.trans (step q)

theorem start_zero (s : CSyst) : s.start 0 = s.n := by simp [CSyst.start]

theorem n_le_start (s : CSyst) (p : ℕ) : s.n ≤ s.start p := by rw [← start_zero s]; exact start_mono s (Nat.zero_le p)

theorem filter_lt_length (k m : ℕ) (h : m ≤ k) : ((List.range k).filter fun p => decide (p < m)).length = m := by
  have : (List.range k).filter (fun p => decide (p < m)) = List.range m := by
    induction k with
    | zero => obtain rfl : m = 0 := by omega
              rfl
    | succ k ih =>
      rw [List.range_succ, List.filter_append]
      by_cases hk : m ≤ k
      · rw [ih hk]; simp [hk]
      · obtain rfl : m = k + 1 := by omega
        rw [List.range_succ]
        congr 1
        · rw [List.filter_eq_self]
          intro a ha
          simpa using (List.mem_range.mp ha).trans (Nat.lt_succ_self k)
        · simp
  rw [this, List.length_range]

theorem whichLead_eq (s : CSyst) {p i : ℕ} (hp : p < s.leads.length) (h1 : s.start p ≤ i) (h2 : i < s.start (p + 1)) :
    s.whichLead i = p := by
  unfold CSyst.whichLead
  have : (List.range (s.leads.length + 1)).filter (fun q => decide (s.start q ≤ i)) =
      (List.range (s.leads.length + 1)).filter fun q => decide (q < p + 1) := by
    apply List.filter_congr
    intro q _
    rw [decide_eq_decide]
    constructor
    · intro h
      by_contra hq
      have := start_mono s (show p + 1 ≤ q by omega)
      omega
    · intro h
      exact (start_mono s (show q ≤ p by omega)).trans h1
  rw [this, filter_lt_length _ _ (by omega)]
  rfl

/-- Every index of the extended region that is not in the scattering region is in one of the added cells. -/
theorem exists_lead (s : CSyst) {i : ℕ} (h1 : s.n ≤ i) (h2 : i < s.size) :
    ∃ p < s.leads.length, s.start p ≤ i ∧ i < s.start (p + 1) := by
  have : ∀ k ≤ s.leads.length, i < s.start k → ∃ p < s.leads.length, s.start p ≤ i ∧ i < s.start (p + 1) := by
    intro k
    induction k with
    | zero => intro _ h; rw [start_zero] at h; omega
    | succ k ih =>
      intro hk h
      by_cases h' : i < s.start k
      · exact ih (by omega) h'
      · exact ⟨k, by omega, by omega, h⟩
  exact this _ le_rfl h2

theorem patch_cell (s : CSyst) {p i : ℕ} (hp : p < s.leads.length) (h1 : s.start p ≤ i) (h2 : i < s.start (p + 1)) :
    s.patch i = p := by
  have := n_le_start s p
  rw [CSyst.patch, if_neg (by omega), whichLead_eq s hp h1 h2]

theorem patch_padding (s : CSyst) {i : ℕ} {p : ℕ} (hi : i < s.n) (h : s.patch i = p) :
    p < s.leads.length ∧ i ∈ (s.lead p).padding := by
  rw [CSyst.patch, if_pos hi] at h
  split at h
  · rename_i q hq
    have h1 := List.find?_some hq
    have h2 := List.mem_of_find?_eq_some hq
    obtain rfl : q = p := by exact_mod_cast h
    exact ⟨List.mem_range.mp h2, by simpa using h1⟩
  · omega

theorem patch_of_padding (s : CSyst) {i p : ℕ} (hi : i < s.n) (hp : p < s.leads.length) (h : i ∈ (s.lead p).padding) :
    s.patch i ≠ -1 := by
  rw [CSyst.patch, if_pos hi]
  split
  · omega
  · rename_i hq
    rw [List.find?_eq_none] at hq
    have := hq p (List.mem_range.mpr hp)
    simp [h] at this

theorem patch_ge (s : CSyst) (i : ℕ) : -1 ≤ s.patch i := by
  unfold CSyst.patch
  split
  · split <;> omega
  · omega

theorem gt_iff (s : CSyst) (i : ℕ) : s.patch i > -1 ↔ s.patch i ≠ -1 := by
  have := patch_ge s i; omega

/-! ## The links of the extended region -/

section
variable (hs : CompositeOk s)
include hs

theorem mapEnd_lt {p i : ℕ} (_hp : p < s.leads.length) (h : i < (s.lead p).c) :
    mapEnd (s.start p) (s.lead p) i = i + s.start p := by rw [mapEnd, if_pos h]

theorem mapEnd_interface {p i : ℕ} (hp : p < s.leads.length) (h1 : (s.lead p).c ≤ i) (h2 : i < (s.lead p).m) :
    mapEnd (s.start p) (s.lead p) i ∈ (s.lead p).interface ∧ mapEnd (s.start p) (s.lead p) i < s.n := by
  have hl := hs.interface_length p hp
  have : mapEnd (s.start p) (s.lead p) i ∈ (s.lead p).interface := by
    rw [mapEnd, if_neg (by omega), List.getD_eq_getElem?_getD, List.getElem?_eq_getElem (by omega)]
    exact List.getElem_mem _
  exact ⟨this, hs.interface_lt p hp _ this⟩

theorem mapEnd_inj {p i j : ℕ} (hp : p < s.leads.length) (hi : i < (s.lead p).m) (hj : j < (s.lead p).m)
    (h : mapEnd (s.start p) (s.lead p) i = mapEnd (s.start p) (s.lead p) j) : i = j := by
  have hn := n_le_start s p
  have hl := hs.interface_length p hp
  by_cases h1 : i < (s.lead p).c <;> by_cases h2 : j < (s.lead p).c
  · rw [mapEnd_lt hs hp h1, mapEnd_lt hs hp h2] at h; omega
  · have := (mapEnd_interface hs hp (not_lt.mp h2) hj).2
    rw [mapEnd_lt hs hp h1] at h; omega
  · have := (mapEnd_interface hs hp (not_lt.mp h1) hi).2
    rw [mapEnd_lt hs hp h2] at h; omega
  · rw [mapEnd, mapEnd, if_neg h1, if_neg h2, List.getD_eq_getElem?_getD, List.getD_eq_getElem?_getD,
      List.getElem?_eq_getElem (by omega), List.getElem?_eq_getElem (by omega), Option.getD_some, Option.getD_some] at h
    have := (List.Nodup.getElem_inj_iff (hs.interface_nodup p hp)).mp h
    omega

theorem lead_lt {p : ℕ} (hp : p < s.leads.length) {e : ℕ × ℕ} (he : e ∈ (s.lead p).links) :
    e.1 < (s.lead p).m ∧ e.2 < (s.lead p).m :=
  ⟨(hs.lead_links p hp).lt _ he, (hs.lead_links p hp).lt _ ((hs.lead_links p hp).symm _ he)⟩

theorem mapEnd_size {p i : ℕ} (hp : p < s.leads.length) (hi : i < (s.lead p).m) :
    mapEnd (s.start p) (s.lead p) i < s.size := by
  have h1 := start_succ s hp
  have h2 := start_mono s (show p + 1 ≤ s.leads.length by omega)
  have h3 := n_le_start s s.leads.length
  unfold CSyst.size
  by_cases h : i < (s.lead p).c
  · rw [mapEnd_lt hs hp h]; omega
  · have := (mapEnd_interface hs hp (not_lt.mp h) hi).2
    omega

/-- A link of an added cell has an end in the cell. -/
theorem added_cell {p : ℕ} (hp : p < s.leads.length) {e : ℕ × ℕ} (he : e ∈ (s.lead p).links) :
    (e.1 < (s.lead p).c ∧ s.start p ≤ mapEnd (s.start p) (s.lead p) e.1 ∧
      mapEnd (s.start p) (s.lead p) e.1 < s.start (p + 1)) ∨
    (e.2 < (s.lead p).c ∧ s.start p ≤ mapEnd (s.start p) (s.lead p) e.2 ∧
      mapEnd (s.start p) (s.lead p) e.2 < s.start (p + 1)) := by
  have h1 := start_succ s hp
  rcases (hs.lead_links p hp).cell e he with h | h
  · left; rw [mapEnd_lt hs hp h]; omega
  · right; rw [mapEnd_lt hs hp h]; omega

theorem mem_extended {e : ℕ × ℕ} : e ∈ s.extended ↔ e ∈ s.links ∨ ∃ p < s.leads.length, ∃ f ∈ (s.lead p).links,
    e = (mapEnd (s.start p) (s.lead p) f.1, mapEnd (s.start p) (s.lead p) f.2) := by
  unfold CSyst.extended CSyst.entries addedCell
  simp only [List.map_append, List.map_map, List.map_flatMap, List.mem_append, List.mem_flatMap, List.mem_map,
    List.mem_range, Function.comp_apply]
  constructor
  · rintro (⟨f, hf, rfl⟩ | ⟨p, hp, f, hf, rfl⟩)
    · exact .inl hf
    · exact .inr ⟨p, hp, f, hf, rfl⟩
  · rintro (h | ⟨p, hp, f, hf, rfl⟩)
    · exact .inl ⟨e, h, rfl⟩
    · exact .inr ⟨p, hp, f, hf, rfl⟩

theorem nodup_extended : s.extended.Nodup := by
  have hE : s.extended = s.links ++ (List.range s.leads.length).flatMap fun p => (s.lead p).links.map fun f =>
      (mapEnd (s.start p) (s.lead p) f.1, mapEnd (s.start p) (s.lead p) f.2) := by
    unfold CSyst.extended CSyst.entries addedCell
    simp [List.map_flatMap, Function.comp_def]
  rw [hE, List.nodup_append']
  refine ⟨hs.links.nodup, ?_, ?_⟩
  · rw [List.nodup_flatMap]
    constructor
    · intro p hp
      have hp := List.mem_range.mp hp
      refine List.Nodup.map_on ?_ (hs.lead_links p hp).nodup
      intro a ha b hb h
      obtain ⟨h1, h2⟩ := Prod.mk.inj h
      exact Prod.ext (mapEnd_inj hs hp (lead_lt hs hp ha).1 (lead_lt hs hp hb).1 h1)
        (mapEnd_inj hs hp (lead_lt hs hp ha).2 (lead_lt hs hp hb).2 h2)
    · refine List.Pairwise.imp_of_mem ?_ List.nodup_range
      intro p q hp hq hpq
      have hp := List.mem_range.mp hp
      have hq := List.mem_range.mp hq
      rw [Function.onFun, List.disjoint_left]
      rintro e h1 h2
      obtain ⟨f, hf, rfl⟩ := List.mem_map.mp h1
      obtain ⟨g, hg, h⟩ := List.mem_map.mp h2
      obtain ⟨h3, h4⟩ := Prod.mk.inj h
      -- an index cannot be in two cells, nor in a cell and the scattering region
      have key : ∀ p q i j, p < s.leads.length → q < s.leads.length → p ≠ q → j < (s.lead q).m →
          s.start p ≤ i → i < s.start (p + 1) → mapEnd (s.start q) (s.lead q) j = i → False := by
        intro p q i j hp hq hpq hj h1 h2 h
        have hn := n_le_start s p
        by_cases hc : j < (s.lead q).c
        · have h5 := whichLead_eq s hp h1 h2
          have h6 := start_succ s hq
          rw [mapEnd_lt hs hq hc] at h
          have h7 := whichLead_eq s hq (i := i) (by omega) (by omega)
          exact hpq (h5.symm.trans h7)
        · have := (mapEnd_interface hs hq (not_lt.mp hc) hj).2
          omega
      rcases added_cell hs hp hf with ⟨_, h5, h6⟩ | ⟨_, h5, h6⟩
      · exact key p q _ _ hp hq hpq (lead_lt hs hq hg).1 h5 h6 h3
      · exact key p q _ _ hp hq hpq (lead_lt hs hq hg).2 h5 h6 h4
  · rw [List.disjoint_left]
    intro e he h
    obtain ⟨p, hp, h⟩ := List.mem_flatMap.mp h
    have hp := List.mem_range.mp hp
    obtain ⟨f, hf, rfl⟩ := List.mem_map.mp h
    have h1 := hs.links.lt _ he
    have h2 := hs.links.lt _ (hs.links.symm _ he)
    simp only [Prod.fst_swap] at h1 h2
    have h3 := n_le_start s p
    rcases added_cell hs hp hf with ⟨_, h5, h6⟩ | ⟨_, h5, h6⟩ <;> omega

theorem extended_links : Links s.extended s.size := by
  refine ⟨?_, nodup_extended hs, ?_, ?_⟩
  · intro e he
    rcases (mem_extended hs).mp he with h | ⟨p, hp, f, hf, rfl⟩
    · exact lt_of_lt_of_le (hs.links.lt _ h) (n_le_start s _)
    · exact mapEnd_size hs hp (lead_lt hs hp hf).1
  · intro e he
    rw [mem_extended hs] at he ⊢
    rcases he with h | ⟨p, hp, f, hf, rfl⟩
    · exact .inl (hs.links.symm _ h)
    · exact .inr ⟨p, hp, f.swap, (hs.lead_links p hp).symm _ hf, rfl⟩
  · intro e he
    rcases (mem_extended hs).mp he with h | ⟨p, hp, f, hf, rfl⟩
    · exact hs.links.irrefl _ h
    · intro h
      exact (hs.lead_links p hp).irrefl _ hf (mapEnd_inj hs hp (lead_lt hs hp hf).1 (lead_lt hs hp hf).2 h)

end

/-- The distance matrix as a function. -/
noncomputable def entryDist (E : List ((ℕ × ℕ) × ℝ)) (i j : ℕ) : ℝ := (E.lookup (i, j)).getD 0

theorem lookup_of_mem {E : List ((ℕ × ℕ) × ℝ)} (hn : (E.map Prod.fst).Nodup) {e : (ℕ × ℕ) × ℝ} (he : e ∈ E) :
    E.lookup e.1 = some e.2 := by
  induction E with
  | nil => cases he
  | cons a E ih =>
    rw [List.map_cons, List.nodup_cons] at hn
    rcases List.mem_cons.mp he with rfl | he
    · rw [List.lookup_cons]; simp
    · have hne : e.1 ≠ a.1 := by
        intro h
        exact hn.1 (h ▸ List.mem_map_of_mem he)
      rw [List.lookup_cons]
      have : (e.1 == a.1) = false := by simpa using hne
      rw [this]
      exact ih hn.2 he

theorem entryDist_mem {E : List ((ℕ × ℕ) × ℝ)} (hn : (E.map Prod.fst).Nodup) {e : (ℕ × ℕ) × ℝ} (he : e ∈ E) :
    entryDist E e.1.1 e.1.2 = e.2 := by
  unfold entryDist
  rw [show (e.1.1, e.1.2) = e.1 from rfl, lookup_of_mem hn he]; rfl

theorem entries_nonneg (hs : CompositeOk s) : ∀ e ∈ s.entries, 0 ≤ e.2 := by
  intro e he
  unfold CSyst.entries addedCell at he
  rcases List.mem_append.mp he with h | h
  · obtain ⟨f, _, rfl⟩ := List.mem_map.mp h
    exact hs.dist_nonneg _ _
  · obtain ⟨p, hp, h⟩ := List.mem_flatMap.mp h
    obtain ⟨f, _, rfl⟩ := List.mem_map.mp h
    exact hs.lead_nonneg p (List.mem_range.mp hp) _ _

theorem entries_symm (hs : CompositeOk s) : ∀ e ∈ s.entries, (e.1.swap, e.2) ∈ s.entries := by
  intro e he
  unfold CSyst.entries addedCell at he ⊢
  rcases List.mem_append.mp he with h | h
  · obtain ⟨f, hf, rfl⟩ := List.mem_map.mp h
    refine List.mem_append.mpr (.inl (List.mem_map.mpr ⟨f.swap, hs.links.symm _ hf, ?_⟩))
    simp [hs.dist_symm f.1 f.2]
  · obtain ⟨p, hp, h⟩ := List.mem_flatMap.mp h
    obtain ⟨f, hf, rfl⟩ := List.mem_map.mp h
    have hp' := List.mem_range.mp hp
    refine List.mem_append.mpr (.inr (List.mem_flatMap.mpr ⟨p, hp, List.mem_map.mpr ⟨f.swap, (hs.lead_links p hp').symm _ hf, ?_⟩⟩))
    simp [hs.lead_symm p hp' f.1 f.2]

theorem entryDist_nonneg {E : List ((ℕ × ℕ) × ℝ)} (h : ∀ e ∈ E, 0 ≤ e.2) (i j : ℕ) : 0 ≤ entryDist E i j := by
  unfold entryDist
  induction E with
  | nil => simp
  | cons a E ih =>
    rw [List.lookup_cons]
    by_cases hb : ((i, j) == a.1) = true
    · rw [hb]; exact h a (by simp)
    · rw [Bool.not_eq_true] at hb
      rw [hb]; exact ih fun e he => h e (by simp [he])

end Kwant.Gauge
