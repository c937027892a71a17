import Mathlib.Data.List.Sort
import Mathlib.Data.Finset.Basic
import Mathlib.Algebra.BigOperators.Group.List.Basic
import Mathlib.Tactic.Ring
import Mathlib.Tactic.Linarith
/-!
The sparse matrices of the gauge (kwant/physics/gauge.py l.168-232): the weighted graphs of links are assembled in COO format from several pieces, and the search for loops copies single entries from one
CSR matrix to another one by position.

Simplifications: arrays are functions with the lengths given by the pointers (CSR) or lists of triples (COO); the conversion to CSR by scipy is assumed to give canonical matrices (sorted indices without
duplicates), which is what `coo_matrix.tocsr` documents.
-/

namespace Kwant.GaugeSparse

/-! ## Model -/

/-- A CSR matrix with `rows` rows: the entries of row `i` are at the positions `indptr i`, ..., `indptr (i + 1) - 1` of `indices` and `data`. -/
structure Csr (α : Type) where
  rows : ℕ
  indptr : ℕ → ℕ
  indices : ℕ → ℕ
  data : ℕ → α

/-- `range(a, b)` -/
def pyRange (a b : ℕ) : List ℕ := List.range' a (b - a)

/-- The loop of `_assign_csr` (l.181-185): the first position of the row that has the column. -/
def find {α : Type} (a : Csr α) (row col : ℕ) : Option ℕ :=
  (pyRange (a.indptr row) (a.indptr (row + 1))).find? fun j => decide (a.indices j = col)

/-- `_assign_csr(a, b, (row, col))` for a CSR matrix `b` (l.168-190) -/
def assignCsr {α : Type} (a b : Csr α) (row col : ℕ) : Except String (Csr α) :=
  match find a row col with
  | none => .error "ValueError"
  | some j => .ok { a with data := Function.update a.data j (b.data j) }

/-- `_same_sparsity_structure` (l.193-197) for sorted matrices: `np.array_equal` compares the lengths and the values. -/
def sameStructure {α : Type} (a b : Csr α) : Prop :=
  (a.indptr a.rows = b.indptr b.rows ∧ ∀ p < a.indptr a.rows, a.indices p = b.indices p) ∧ (a.rows = b.rows ∧ ∀ i ≤ a.rows, a.indptr i = b.indptr i)

/-- A COO matrix: row, column, value. -/
abbrev Coo (α : Type) := List (ℕ × ℕ × α)

/-- `_add_coo_matrices` (l.200-205) -/
def addCoo {α : Type} (mats : List (Coo α)) : Coo α := mats.flatten

/-- `_shift_diagonally` (l.208-212) -/
def shiftDiagonally {α : Type} (m : Coo α) (shift : ℕ) : Coo α := m.map fun e => (e.1 + shift, e.2.1 + shift, e.2.2)

/-- `_distance_matrix` (l.215-232) -/
def distanceMatrix {α P : Type} (dist : P → P → α) (links : List (ℕ × ℕ)) (pos : ℕ → P) : Coo α := links.map fun l => (l.1, l.2, dist (pos l.1) (pos l.2))

/-! ## Specification -/

/-- Position `p` stores an entry of row `i` and column `j`. -/
def StoredAt {α : Type} (m : Csr α) (i j p : ℕ) : Prop := m.indptr i ≤ p ∧ p < m.indptr (i + 1) ∧ m.indices p = j

/-- The entry of row `i` and column `j` has the value `v`. -/
def HasEntry {α : Type} (m : Csr α) (i j : ℕ) (v : α) : Prop := ∃ p, StoredAt m i j p ∧ m.data p = v

/-- What `tocsr` guarantees: pointers are ordered, and the columns of every row strictly increase. -/
structure Canonical {α : Type} (m : Csr α) : Prop where
  start : m.indptr 0 = 0
  mono : ∀ i < m.rows, m.indptr i ≤ m.indptr (i + 1)
  sorted : ∀ i < m.rows, ∀ p q, m.indptr i ≤ p → p < q → q < m.indptr (i + 1) → m.indices p < m.indices q

/-- The value of an element of a COO matrix: entries for the same element are added. -/
def dense {α : Type} [AddCommMonoid α] (m : Coo α) (i j : ℕ) : α := ((m.filter fun e => decide (e.1 = i ∧ e.2.1 = j)).map fun e => e.2.2).sum

/-! ## Proofs -/

theorem mem_pyRange {a b p : ℕ} : p ∈ pyRange a b ↔ a ≤ p ∧ p < b := by
  unfold pyRange
  rw [List.mem_range'_1]
  omega

theorem find_some {α : Type} {a : Csr α} {i j p : ℕ} (h : find a i j = some p) : StoredAt a i j p := by
  unfold find at h
  have h1 := List.mem_of_find?_eq_some h
  have h2 := List.find?_some h
  rw [mem_pyRange] at h1
  exact ⟨h1.1, h1.2, by simpa using h2⟩

theorem find_none {α : Type} {a : Csr α} {i j : ℕ} (h : find a i j = none) : ∀ p, ¬ StoredAt a i j p := by
  rintro p ⟨h1, h2, h3⟩
  unfold find at h
  rw [List.find?_eq_none] at h
  have := h p (mem_pyRange.mpr ⟨h1, h2⟩)
  simp [h3] at this

/-- The rows do not overlap. -/
theorem ptr_mono {α : Type} {m : Csr α} (h : Canonical m) {i k : ℕ} (hik : i ≤ k) (hk : k ≤ m.rows) : m.indptr i ≤ m.indptr k := by
  induction k, hik using Nat.le_induction with
  | base => exact le_refl _
  | succ k hik ih => exact (ih (by omega)).trans (h.mono k (by omega))

/-- Every position stores at most one element. -/
theorem stored_unique {α : Type} {m : Csr α} (h : Canonical m) {i j k l p : ℕ} (hi : i < m.rows) (hk : k < m.rows) (h1 : StoredAt m i j p) (h2 : StoredAt m k l p) : i = k ∧ j = l := by
  obtain ⟨a1, a2, a3⟩ := h1
  obtain ⟨b1, b2, b3⟩ := h2
  refine ⟨?_, by rw [← a3, ← b3]⟩
  rcases Nat.lt_trichotomy i k with hlt | heq | hgt
  · have := ptr_mono h (show i + 1 ≤ k by omega) (by omega)
    omega
  · exact heq
  · have := ptr_mono h (show k + 1 ≤ i by omega) (by omega)
    omega

/-- Every element is stored at one position at most. -/
theorem position_unique {α : Type} {m : Csr α} (h : Canonical m) {i j p q : ℕ} (hi : i < m.rows) (h1 : StoredAt m i j p) (h2 : StoredAt m i j q) : p = q := by
  obtain ⟨a1, a2, a3⟩ := h1
  obtain ⟨b1, b2, b3⟩ := h2
  rcases Nat.lt_trichotomy p q with hlt | heq | hgt
  · have := h.sorted i hi p q a1 hlt b2
    omega
  · exact heq
  · have := h.sorted i hi q p b1 hgt a2
    omega

theorem same_stored {α : Type} {a b : Csr α} (hs : sameStructure a b) (ha : Canonical a) {i : ℕ} (hi : i < a.rows) (j p : ℕ) : StoredAt a i j p ↔ StoredAt b i j p := by
  obtain ⟨⟨s1, s2⟩, s3, s4⟩ := hs
  unfold StoredAt
  rw [← s4 i (by omega), ← s4 (i + 1) (by omega)]
  constructor
  · rintro ⟨h1, h2, h3⟩
    have := ptr_mono ha (show i + 1 ≤ a.rows by omega) (le_refl _)
    exact ⟨h1, h2, by rw [← s2 p (by omega)]; exact h3⟩
  · rintro ⟨h1, h2, h3⟩
    have := ptr_mono ha (show i + 1 ≤ a.rows by omega) (le_refl _)
    exact ⟨h1, h2, by rw [s2 p (by omega)]; exact h3⟩

/-- **C204 (assignment).** If the structures are the same, the assignment copies exactly this element: it gets the value of the other matrix, all others keep theirs, and the structure stays the same, so that
further assignments are possible.  An element that is not stored is refused. -/
theorem C204_assign {α : Type} {a b : Csr α} (ha : Canonical a) (hs : sameStructure a b) {row : ℕ} (hr : row < a.rows) (col : ℕ) :
    ((∃ v, HasEntry a row col v) → ∃ a', assignCsr a b row col = .ok a' ∧ Canonical a' ∧ sameStructure a' b ∧ a'.rows = a.rows ∧
      (∀ v, HasEntry a' row col v ↔ HasEntry b row col v) ∧
      ∀ i j, i < a.rows → (i, j) ≠ (row, col) → ∀ v, HasEntry a' i j v ↔ HasEntry a i j v) ∧
    ((¬ ∃ v, HasEntry a row col v) → assignCsr a b row col = .error "ValueError") := by
  constructor
  · rintro ⟨v0, p0, hp0, -⟩
    unfold assignCsr
    rcases hf : find a row col with _ | p
    · exact absurd hp0 (find_none hf p0)
    · have hp := find_some hf
      refine ⟨{ a with data := Function.update a.data p (b.data p) }, rfl, ⟨ha.start, ha.mono, ha.sorted⟩, hs, rfl, fun v => ⟨?_, ?_⟩, fun i j hi hne v => ⟨?_, ?_⟩⟩
      · rintro ⟨q, hq, hv⟩
        have hq' : StoredAt a row col q := hq
        obtain rfl := position_unique ha hr hp hq'
        refine ⟨p, (same_stored hs ha hr col p).mp hp, ?_⟩
        simpa using hv
      · rintro ⟨q, hq, hv⟩
        have hq' := (same_stored hs ha hr col q).mpr hq
        obtain rfl := position_unique ha hr hp hq'
        exact ⟨p, hp, by simpa using hv⟩
      · rintro ⟨q, hq, hv⟩
        have hq' : StoredAt a i j q := hq
        have hqp : q ≠ p := by
          rintro rfl
          obtain ⟨rfl, rfl⟩ := stored_unique ha hi hr hq' hp
          exact hne rfl
        exact ⟨q, hq', by simpa [Function.update_of_ne hqp] using hv⟩
      · rintro ⟨q, hq, hv⟩
        have hqp : q ≠ p := by
          rintro rfl
          obtain ⟨rfl, rfl⟩ := stored_unique ha hi hr hq hp
          exact hne rfl
        exact ⟨q, hq, by simpa [Function.update_of_ne hqp] using hv⟩
  · intro hn
    unfold assignCsr
    rcases hf : find a row col with _ | p
    · rfl
    · exact absurd ⟨_, p, find_some hf, rfl⟩ hn

/-- The columns of a row. -/
def cols {α : Type} (m : Csr α) (i : ℕ) : List ℕ := (pyRange (m.indptr i) (m.indptr (i + 1))).map m.indices

theorem cols_sorted {α : Type} {m : Csr α} (h : Canonical m) {i : ℕ} (hi : i < m.rows) : (cols m i).Pairwise (· < ·) := by
  unfold cols
  rw [List.pairwise_map]
  have h1 : (pyRange (m.indptr i) (m.indptr (i + 1))).Pairwise (· < ·) := by
    unfold pyRange
    exact List.pairwise_lt_range'
  refine h1.imp_of_mem ?_
  intro p q hp hq hpq
  rw [mem_pyRange] at hp hq
  exact h.sorted i hi p q hp.1 hpq hq.2

theorem mem_cols {α : Type} {m : Csr α} {i j : ℕ} : j ∈ cols m i ↔ ∃ v, HasEntry m i j v := by
  unfold cols HasEntry StoredAt
  simp only [List.mem_map, mem_pyRange]
  constructor
  · rintro ⟨p, ⟨h1, h2⟩, h3⟩
    exact ⟨_, p, ⟨h1, h2, h3⟩, rfl⟩
  · rintro ⟨_, p, ⟨h1, h2, h3⟩, -⟩
    exact ⟨p, ⟨h1, h2⟩, h3⟩

/-- **C204 (structure).** The check of the structure decides whether the same elements are stored. -/
theorem C204_structure {α : Type} {a b : Csr α} (ha : Canonical a) (hb : Canonical b) (hr : a.rows = b.rows) :
    sameStructure a b ↔ ∀ i < a.rows, ∀ j, (∃ v, HasEntry a i j v) ↔ ∃ v, HasEntry b i j v := by
  constructor
  · intro hs i hi j
    constructor
    · rintro ⟨v, p, hp, -⟩
      exact ⟨_, p, (same_stored hs ha hi j p).mp hp, rfl⟩
    · rintro ⟨v, p, hp, -⟩
      exact ⟨_, p, (same_stored hs ha hi j p).mpr hp, rfl⟩
  · intro h
    have hc : ∀ i < a.rows, cols a i = cols b i := by
      intro i hi
      have h1 := cols_sorted ha hi
      have h2 := cols_sorted hb (hr ▸ hi)
      have n1 : (cols a i).Nodup := h1.imp (fun hh => Nat.ne_of_lt hh)
      have n2 : (cols b i).Nodup := h2.imp (fun hh => Nat.ne_of_lt hh)
      have hp : (cols a i).Perm (cols b i) := (List.perm_ext_iff_of_nodup n1 n2).mpr fun j => by rw [mem_cols, mem_cols]; exact h i hi j
      exact hp.eq_of_pairwise (fun x y _ _ hxy hyx => absurd hxy (Nat.lt_asymm hyx)) h1 h2
    have hlen : ∀ i < a.rows, a.indptr (i + 1) - a.indptr i = b.indptr (i + 1) - b.indptr i := by
      intro i hi
      have := congrArg List.length (hc i hi)
      simpa [cols, pyRange] using this
    have hptr : ∀ i ≤ a.rows, a.indptr i = b.indptr i := by
      intro i
      induction i with
      | zero => intro _; rw [ha.start, hb.start]
      | succ i ih =>
        intro hi
        have h1 := ih (by omega)
        have h2 := hlen i (by omega)
        have h3 := ha.mono i (by omega)
        have h4 := hb.mono i (by omega)
        omega
    refine ⟨⟨by rw [hptr _ (le_refl _), hr], fun p hp => ?_⟩, hr, hptr⟩
    have hrow : ∀ n ≤ a.rows, p < a.indptr n → ∃ i < n, a.indptr i ≤ p ∧ p < a.indptr (i + 1) := by
      intro n
      induction n with
      | zero => intro _ hh; rw [ha.start] at hh; omega
      | succ n ih =>
        intro hn hh
        by_cases hlt : p < a.indptr n
        · obtain ⟨i, hi, hx⟩ := ih (by omega) hlt
          exact ⟨i, by omega, hx⟩
        · exact ⟨n, by omega, by omega, hh⟩
    obtain ⟨i, hi, h1, h2⟩ := hrow _ (le_refl _) hp
    have := hc i hi
    unfold cols at this
    rw [← hptr i (by omega), ← hptr (i + 1) (by omega)] at this
    exact List.map_inj_left.mp this p (mem_pyRange.mpr ⟨h1, h2⟩)

/-- **C204 (assembly).** The matrices are added, the shift moves the elements along the diagonal. -/
theorem C204_add {α : Type} [AddCommMonoid α] (mats : List (Coo α)) (i j : ℕ) : dense (addCoo mats) i j = (mats.map fun m => dense m i j).sum := by
  unfold addCoo
  induction mats with
  | nil => rfl
  | cons m ms ih =>
    rw [List.flatten_cons, List.map_cons, List.sum_cons, ← ih]
    simp [dense, List.filter_append]

theorem C204_shift {α : Type} [AddCommMonoid α] (m : Coo α) (s i j : ℕ) :
    dense (shiftDiagonally m s) (i + s) (j + s) = dense m i j ∧ ∀ k l, k < s ∨ l < s → dense (shiftDiagonally m s) k l = 0 := by
  constructor
  · induction m with
    | nil => rfl
    | cons e es ih =>
      unfold dense shiftDiagonally at ih ⊢
      by_cases h : e.1 = i ∧ e.2.1 = j
      · rw [List.map_cons, List.filter_cons_of_pos (by simp [h.1, h.2]), List.filter_cons_of_pos (by simp [h.1, h.2]), List.map_cons, List.map_cons, List.sum_cons, List.sum_cons, ih]
      · rw [List.map_cons, List.filter_cons_of_neg (by simpa using h), List.filter_cons_of_neg (by simpa using h), ih]
  · intro k l h
    unfold dense shiftDiagonally
    have : ((m.map fun e => (e.1 + s, e.2.1 + s, e.2.2)).filter fun e => decide (e.1 = k ∧ e.2.1 = l)) = [] := by
      rw [List.filter_eq_nil_iff]
      intro e he
      obtain ⟨x, -, rfl⟩ := List.mem_map.mp he
      simp only [decide_eq_true_eq]
      omega
    rw [this]
    rfl

/-- The element of a link is its length, if no link is given twice; all others are zero. -/
theorem C204_distance {α P : Type} [AddCommMonoid α] (dist : P → P → α) {links : List (ℕ × ℕ)} (hn : links.Nodup) (pos : ℕ → P) (i j : ℕ) :
    dense (distanceMatrix dist links pos) i j = if (i, j) ∈ links then dist (pos i) (pos j) else 0 := by
  induction links with
  | nil => rfl
  | cons l ls ih =>
    have ih' := ih (List.nodup_cons.mp hn).2
    have hl := (List.nodup_cons.mp hn).1
    unfold dense distanceMatrix at ih' ⊢
    by_cases h : l.1 = i ∧ l.2 = j
    · have e : l = (i, j) := Prod.ext h.1 h.2
      subst e
      rw [List.map_cons, List.filter_cons_of_pos (by simp), List.map_cons, List.sum_cons, ih', if_neg hl, if_pos (by simp), add_zero]
    · rw [List.map_cons, List.filter_cons_of_neg (by simpa using h), ih']
      have : (i, j) ∈ l :: ls ↔ (i, j) ∈ ls := by
        rw [List.mem_cons]
        constructor
        · rintro (rfl | hx)
          · exact absurd ⟨rfl, rfl⟩ h
          · exact hx
        · exact Or.inr
      simp only [this]

/-- Two matrices of one row with the same elements, the second one unsorted. -/
def unsorted (swap : Bool) : Csr ℕ := ⟨1, fun i => if i = 0 then 0 else 2, fun p => if (p = 0) = (swap = false) then 3 else 5, fun p => if (p = 0) = (swap = false) then 30 else 50⟩

/-- The check of the structure sorts copies of the matrices (l.194-195), but the assignment uses the stored order (l.188): without sorted matrices, the value of another element would be copied. -/
theorem C204_unsorted :
    (∀ j v, HasEntry (unsorted false) 0 j v ↔ HasEntry (unsorted true) 0 j v) ∧ ∃ a', assignCsr (unsorted false) (unsorted true) 0 3 = .ok a' ∧ HasEntry a' 0 3 50 := by
  constructor
  · intro j v
    unfold HasEntry StoredAt unsorted
    simp only
    constructor
    · rintro ⟨p, ⟨h1, h2, h3⟩, h4⟩
      have : p = 0 ∨ p = 1 := by simp at h2; omega
      rcases this with rfl | rfl
      · exact ⟨1, by simpa using h3, by simpa using h4⟩
      · exact ⟨0, by simpa using h3, by simpa using h4⟩
    · rintro ⟨p, ⟨h1, h2, h3⟩, h4⟩
      have : p = 0 ∨ p = 1 := by simp at h2; omega
      rcases this with rfl | rfl
      · exact ⟨1, by simpa using h3, by simpa using h4⟩
      · exact ⟨0, by simpa using h3, by simpa using h4⟩
  · exact ⟨_, rfl, 0, ⟨by decide, by decide, by decide⟩, by decide⟩

/-- The hypotheses of the theorems can be met: a link is copied, and a missing one is refused. -/
theorem C204_example : Canonical (unsorted false) ∧ sameStructure (unsorted false) { unsorted false with data := fun p => 7 + p } ∧
    (∃ a', assignCsr (unsorted false) { unsorted false with data := fun p => 7 + p } 0 5 = .ok a' ∧ HasEntry a' 0 5 8 ∧ HasEntry a' 0 3 30) ∧
    assignCsr (unsorted false) { unsorted false with data := fun p => 7 + p } 0 4 = .error "ValueError" ∧
    dense (addCoo [[(0, 1, (2 : ℕ))], shiftDiagonally (distanceMatrix (fun a b => b - a) [(0, 1), (1, 2)] fun i => i * i) 0]) 0 1 = 3 := by
  refine ⟨⟨rfl, ?_, ?_⟩, ⟨⟨rfl, fun _ _ => rfl⟩, rfl, fun _ _ => rfl⟩, ⟨_, rfl, ⟨1, ⟨by decide, by decide, by decide⟩, by decide⟩, ⟨0, ⟨by decide, by decide, by decide⟩, by decide⟩⟩, rfl, by decide⟩
  · intro i hi
    simp [unsorted] at hi ⊢
    subst hi
    simp
  · intro i hi p q h1 h2 h3
    have hi0 : i = 0 := by simp [unsorted] at hi; exact hi
    subst hi0
    simp [unsorted] at h3 ⊢
    have : p = 0 ∧ q = 1 := by omega
    obtain ⟨rfl, rfl⟩ := this
    simp

end Kwant.GaugeSparse
