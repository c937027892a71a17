import Mathlib.Data.List.Sort
import Mathlib.Data.Real.Sqrt
import Mathlib.Data.List.FinRange
import Mathlib.Algebra.BigOperators.Fin
import Mathlib.Tactic.NormNum
import Mathlib.Tactic.Linarith
import Mathlib.Tactic.Positivity

/-!
C200: the unit of length of symbol sizes and line widths in `kwant.plot`: `_plot_matplotlib`, plotter.py l.1322-1359.  Exact arithmetic; positions are vectors of dimension 2 or 3 (here: any), after
`_resize_to_dim`.
-/

namespace Kwant.RefLen

variable {dim : ℕ}

/-! ## Model -/

/-- The argument `unit` of `plot`: `none` for something that cannot be converted to a float. -/
inductive LengthUnit where
  | pt
  | nn
  | other (r : Option ℝ)

/-- `np.sum(v**2)` -/
noncomputable def sq (v : Fin dim → ℝ) : ℝ := ∑ c, v c ^ 2

/-- `np.searchsorted(distances, 1e-16 * distances[-1])` and `distances[...]` (l.1343-1350): the first element of the sorted array that is not less than the bound. -/
noncomputable def firstLong (distances : List ℝ) : Except String ℝ :=
  let s := distances.insertionSort (· ≤ ·)
  match s.getLast? with
  | none => .error "IndexError"
  | some m =>
    match s.find? (fun x => decide (m / 10 ^ 16 ≤ x)) with
    | none => .error "IndexError"
    | some x => .ok x

/-- `_sample_array(sites_pos, 10).T` reshaped to rows of length `dim` (l.1340-1342); `points` are the sampled positions. -/
noncomputable def reshaped (points : List (Fin dim → ℝ)) : List (Fin dim → ℝ) :=
  let flat := (List.finRange dim).flatMap (fun c => points.map (fun p => p c))
  (List.range points.length).map (fun j c => flat.getD (j * dim + c) 0)

/-- `reflen` (l.1322-1359).  `hops`: the end and start positions of all the hoppings (system and leads); `nSyst` of them belong to the system; `sites`: all the positions; `points`: the sample of them. -/
noncomputable def reflen (unit : LengthUnit) (hops : List ((Fin dim → ℝ) × (Fin dim → ℝ))) (nSyst : ℕ) (sites points : List (Fin dim → ℝ)) : Except String (Option ℝ) :=
  match unit with
  | .pt => .ok none
  | .nn =>
    let distances := if nSyst ≠ 0 then hops.map (fun h => sq (h.1 - h.2)) else (reshaped points).flatMap (fun p => sites.map (fun s => sq (s - p)))
    (firstLong distances).map (fun x => some (Real.sqrt x))
  | .other (some r) => .ok (some r)
  | .other none => .error "ValueError"

/-! ## Specification -/

/-- The length of a hopping. -/
noncomputable def length (h : (Fin dim → ℝ) × (Fin dim → ℝ)) : ℝ := Real.sqrt (∑ c, (h.1 c - h.2 c) ^ 2)

/-! ## Proofs -/

theorem sq_nonneg' (v : Fin dim → ℝ) : 0 ≤ sq v := Finset.sum_nonneg (fun _ _ => sq_nonneg _)

theorem length_eq (h : (Fin dim → ℝ) × (Fin dim → ℝ)) : length h = Real.sqrt (sq (h.1 - h.2)) := rfl

/-- The element found. -/
theorem firstLong_ok (d : List ℝ) (hd : d ≠ []) (h0 : ∀ x ∈ d, 0 ≤ x) :
    ∃ x m, firstLong d = .ok x ∧ x ∈ d ∧ m ∈ d ∧ (∀ y ∈ d, y ≤ m) ∧ m / 10 ^ 16 ≤ x ∧ ∀ y ∈ d, y < x → y < m / 10 ^ 16 := by
  set s := d.insertionSort (· ≤ ·) with hs
  have hperm : s.Perm d := List.perm_insertionSort _ _
  have hsort : s.Pairwise (· ≤ ·) := List.pairwise_insertionSort _ _
  have hne : s ≠ [] := by
    intro h
    rw [h] at hperm
    exact hd (List.nil_perm.mp hperm)
  have hmem : ∀ y, y ∈ s ↔ y ∈ d := fun y => hperm.mem_iff
  set m := s.getLast hne with hm
  have hms : m ∈ s := List.getLast_mem hne
  have hmax : ∀ y ∈ d, y ≤ m := by
    intro y hy
    obtain ⟨i, hi, rfl⟩ := List.getElem_of_mem ((hmem y).mpr hy)
    rw [hm, List.getLast_eq_getElem]
    rcases Nat.lt_or_ge i (s.length - 1) with h | h
    · exact List.pairwise_iff_getElem.mp hsort i (s.length - 1) hi (by omega) h
    · have : i = s.length - 1 := by omega
      subst this
      exact le_refl _
  have hm0 : 0 ≤ m := h0 m ((hmem m).mp hms)
  have hfind : ∃ x, s.find? (fun x => decide (m / 10 ^ 16 ≤ x)) = some x := by
    rw [← Option.isSome_iff_exists, List.find?_isSome]
    refine ⟨m, hms, ?_⟩
    rw [decide_eq_true_eq]
    rw [div_le_iff₀ (by positivity)]
    nlinarith [hm0]
  obtain ⟨x, hx⟩ := hfind
  have hx1 : m / 10 ^ 16 ≤ x := by simpa using List.find?_some hx
  refine ⟨x, m, ?_, (hmem x).mp (List.mem_of_find?_eq_some hx), (hmem m).mp hms, hmax, hx1, ?_⟩
  · unfold firstLong
    simp only [← hs, List.getLast?_eq_some_getLast hne, ← hm, hx]
  · intro y hy hyx
    by_contra hcon
    push Not at hcon
    obtain ⟨-, as, bs, e, h⟩ := List.find?_eq_some_iff_append.mp hx
    have hy' := (hmem y).mpr hy
    rw [e] at hy' hsort
    rcases List.mem_append.mp hy' with h1 | h1
    · have := h y h1
      simp at this
      linarith
    · rcases List.mem_cons.mp h1 with rfl | h2
      · exact lt_irrefl _ hyx
      · have := (List.pairwise_append.mp hsort).2.1
        have := (List.pairwise_cons.mp this).1 y h2
        linarith

/-- **C200.** In a system with hoppings the unit `'nn'` is the length of a hopping; the hoppings that are shorter are discarded because they are shorter than `10^-8` times the longest one. -/
theorem C200_nn (hops : List ((Fin dim → ℝ) × (Fin dim → ℝ))) (nSyst : ℕ) (hn : nSyst ≠ 0) (hlen : nSyst ≤ hops.length) (sites points : List (Fin dim → ℝ)) :
    ∃ h₀ ∈ hops, ∃ h₁ ∈ hops, reflen .nn hops nSyst sites points = .ok (some (length h₀)) ∧ (∀ h ∈ hops, length h ≤ length h₁) ∧
      length h₁ / 10 ^ 8 ≤ length h₀ ∧ ∀ h ∈ hops, length h < length h₀ → length h < length h₁ / 10 ^ 8 := by
  have hne : hops.map (fun h => sq (h.1 - h.2)) ≠ [] := by
    intro h
    rw [List.map_eq_nil_iff] at h
    subst h
    simp at hlen
    exact hn hlen
  obtain ⟨x, m, e, hx, hm, hmax, hmx, hlt⟩ := firstLong_ok _ hne (by
    intro x hx
    obtain ⟨h, -, rfl⟩ := List.mem_map.mp hx
    exact sq_nonneg' _)
  obtain ⟨h₀, m0, rfl⟩ := List.mem_map.mp hx
  obtain ⟨h₁, m1, rfl⟩ := List.mem_map.mp hm
  have hsc : Real.sqrt (sq (h₁.1 - h₁.2) / 10 ^ 16) = length h₁ / 10 ^ 8 := by
    rw [length_eq, Real.sqrt_div (sq_nonneg' _), show (10 : ℝ) ^ 16 = (10 ^ 8) ^ 2 by norm_num, Real.sqrt_sq (by positivity)]
  refine ⟨h₀, m0, h₁, m1, ?_, ?_, ?_, ?_⟩
  · unfold reflen
    simp only [if_pos hn, e]
    rfl
  · intro h hh
    exact Real.sqrt_le_sqrt (hmax _ (List.mem_map_of_mem (f := fun h => sq (h.1 - h.2)) hh))
  · rw [← hsc]
    exact Real.sqrt_le_sqrt hmx
  · intro h hh hl
    rw [length_eq, length_eq] at hl
    have h1 : sq (h.1 - h.2) < sq (h₀.1 - h₀.2) := by
      by_contra hcon
      push Not at hcon
      exact absurd (Real.sqrt_le_sqrt hcon) (not_le.mpr hl)
    have h2 := hlt _ (List.mem_map_of_mem (f := fun h => sq (h.1 - h.2)) hh) h1
    rw [← hsc]
    exact Real.sqrt_lt_sqrt (sq_nonneg' _) h2

/-- **C200 (shortest hopping).** If no hopping is shorter than `10^-8` times the longest one, the unit is the length of the shortest hopping, and it is positive unless all the hoppings have length zero. -/
theorem C200_shortest (hops : List ((Fin dim → ℝ) × (Fin dim → ℝ))) (nSyst : ℕ) (hn : nSyst ≠ 0) (hlen : nSyst ≤ hops.length) (sites points : List (Fin dim → ℝ))
    (hshort : ∀ h ∈ hops, ∀ h' ∈ hops, length h' / 10 ^ 8 ≤ length h) :
    ∃ h₀ ∈ hops, reflen .nn hops nSyst sites points = .ok (some (length h₀)) ∧ (∀ h ∈ hops, length h₀ ≤ length h) ∧
      (0 < length h₀ ∨ ∀ h ∈ hops, length h = 0) := by
  obtain ⟨h₀, m0, h₁, m1, e, h2, h3, h4⟩ := C200_nn hops nSyst hn hlen sites points
  refine ⟨h₀, m0, e, ?_, ?_⟩
  · intro h hh
    by_contra hcon
    push Not at hcon
    have := h4 h hh hcon
    have := hshort h hh h₁ m1
    linarith
  · rcases (Real.sqrt_nonneg (∑ c, (h₀.1 c - h₀.2 c) ^ 2)).lt_or_eq with h5 | h5
    · exact .inl h5
    · right
      intro h hh
      have h6 : length h₀ = 0 := h5.symm
      have h7 := h2 h hh
      have h8 : 0 ≤ length h := Real.sqrt_nonneg _
      have h9 : length h₁ / 10 ^ 8 ≤ 0 := h6 ▸ h3
      have h10 : length h₁ ≤ 0 := by
        by_contra hc
        push Not at hc
        have : 0 < length h₁ / 10 ^ 8 := by positivity
        linarith
      linarith

/-- **C200 (the other units).** -/
theorem C200_units (hops : List ((Fin dim → ℝ) × (Fin dim → ℝ))) (nSyst : ℕ) (sites points : List (Fin dim → ℝ)) :
    reflen .pt hops nSyst sites points = .ok none ∧ (∀ r, reflen (.other (some r)) hops nSyst sites points = .ok (some r)) ∧
      reflen (.other none) hops nSyst sites points = .error "ValueError" := ⟨rfl, fun _ => rfl, rfl⟩

/-- Moving the system does not change the unit when there are hoppings. -/
theorem C200_shift (unit : LengthUnit) (hops : List ((Fin dim → ℝ) × (Fin dim → ℝ))) (nSyst : ℕ) (hn : nSyst ≠ 0) (sites points : List (Fin dim → ℝ)) (t : Fin dim → ℝ) :
    reflen unit (hops.map (fun h => (h.1 + t, h.2 + t))) nSyst (sites.map (· + t)) (points.map (· + t)) = reflen unit hops nSyst sites points := by
  cases unit with
  | pt => rfl
  | other r => cases r <;> rfl
  | nn =>
    unfold reflen
    simp only [if_pos hn, List.map_map]
    congr 2
    apply List.map_congr_left
    intro h _
    simp

/-- Without hoppings: the transposed sample is reshaped as if it were not, so that the unit is not a distance of sites, and changes when the system is moved.  Two sites at `(5, 0)` and `(6, 0)`: the unit is 5; moved
to `(0, 0)` and `(1, 0)`: it is 1.  For a single site it is 0, so that the symbol has no extension. -/
theorem C200_counterexample :
    reflen .nn [] 0 [![5, 0], ![6, 0]] [![5, 0], ![6, 0]] = .ok (some 5) ∧
    reflen .nn [] 0 [![0, 0], ![1, 0]] [![0, 0], ![1, 0]] = .ok (some 1) ∧
    ∀ x y : ℝ, reflen .nn [] 0 [![x, y]] [![x, y]] = .ok (some 0) := by
  refine ⟨?_, ?_, ?_⟩
  · have : Real.sqrt 25 = 5 := by rw [show (25 : ℝ) = 5 ^ 2 by norm_num, Real.sqrt_sq (by norm_num)]
    norm_num [reflen, firstLong, reshaped, sq, List.finRange_succ, List.range_succ, Fin.sum_univ_two, List.insertionSort, List.orderedInsert, Except.map, this]
  · norm_num [reflen, firstLong, reshaped, sq, List.finRange_succ, List.range_succ, Fin.sum_univ_two, List.insertionSort, List.orderedInsert, Except.map]
  · intro x y
    norm_num [reflen, firstLong, reshaped, sq, List.finRange_succ, List.range_succ, Fin.sum_univ_two, List.insertionSort, List.orderedInsert, Except.map]

/-- A chain with a hopping of length 2 and one of length 1. -/
theorem C200_example : ∃ h₀ ∈ [((![0, 0] : Fin 2 → ℝ), ![2, 0]), (![2, 0], ![2, 1])],
    reflen .nn [((![0, 0] : Fin 2 → ℝ), ![2, 0]), (![2, 0], ![2, 1])] 2 [![0, 0], ![2, 0], ![2, 1]] [] = .ok (some (length h₀)) ∧ length h₀ ≤ 1 := by
  have l1 : length ((![0, 0] : Fin 2 → ℝ), ![2, 0]) = 2 := by
    rw [length, show (2 : ℝ) = Real.sqrt (2 ^ 2) by rw [Real.sqrt_sq (by norm_num)]]
    norm_num [Fin.sum_univ_two]
  have l2 : length ((![2, 0] : Fin 2 → ℝ), ![2, 1]) = 1 := by
    norm_num [length, Fin.sum_univ_two]
  obtain ⟨h₀, m0, e, h2, -⟩ := C200_shortest [((![0, 0] : Fin 2 → ℝ), ![2, 0]), (![2, 0], ![2, 1])] 2 (by norm_num) (by simp)
    [![0, 0], ![2, 0], ![2, 1]] [] (by
      intro h hh h' hh'
      simp only [List.mem_cons, List.not_mem_nil, or_false] at hh hh'
      rcases hh with rfl | rfl <;> rcases hh' with rfl | rfl <;> simp only [l1, l2] <;> norm_num)
  exact ⟨h₀, m0, e, l2 ▸ h2 _ (by simp)⟩

end Kwant.RefLen
