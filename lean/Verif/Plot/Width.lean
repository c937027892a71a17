import Verif.Plot.Flux

/-! C145, C146: the width of the bumps, refusals, and systems that meet the hypotheses of the theorems. -/

set_option linter.unusedSectionVars false

namespace Kwant.Plot

variable {d : ℕ}

/-- The distance of two sites. -/
noncomputable def dist2 (pos : ℕ → Fin d → ℝ) (i j : ℕ) : ℝ := Real.sqrt (∑ e, (pos i e - pos j e) ^ 2)

theorem dist2_eq (pos : ℕ → Fin d → ℝ) (i j : ℕ) : Real.sqrt (sumSq fun e => pos i e - pos j e) = dist2 pos i j := by
  unfold dist2 sumSq; congr 1; exact Finset.sum_congr rfl fun e _ => by ring

theorem dist2_comm (pos : ℕ → Fin d → ℝ) (i j : ℕ) : dist2 pos i j = dist2 pos j i := by
  unfold dist2; congr 1; exact Finset.sum_congr rfl fun e _ => by ring

/-- What the width should be: an absolute width if given; without any width, four times the shortest hopping that is longer than a thousandth of the longest hopping. -/
structure WidthSpec (pos : ℕ → Fin d → ℝ) (edges : List (ℕ × ℕ)) (relwidth abswidth : Option ℝ) (g : Grid d) : Prop where
  abs : ∀ w, abswidth = some w → g.width = w
  rel : abswidth = none → ∀ r, relwidth = some r → 1 ≤ d → (∃ e, g.width = r * (g.hi e - g.lo e)) ∧ (0 ≤ r → ∀ e, r * (g.hi e - g.lo e) ≤ g.width)
  default : abswidth = none → relwidth = none → ∀ p q, (p, q) ∈ edges → 0 < dist2 pos p q → (∀ i j, (i, j) ∈ edges → dist2 pos i j ≤ dist2 pos p q) →
    ∃ i j, (i, j) ∈ edges ∧ g.width = 4 * dist2 pos i j ∧ dist2 pos p q / 1000 < dist2 pos i j ∧ ∀ k l, (k, l) ∈ edges → dist2 pos p q / 1000 < dist2 pos k l → dist2 pos i j ≤ dist2 pos k l

theorem lmax_mem : ∀ l : List ℝ, l ≠ [] → lmax l ∈ l := by
  intro l hne
  cases l with
  | nil => exact absurd rfl hne
  | cons a l =>
    simp only [lmax]
    clear hne
    induction l generalizing a with
    | nil => simp
    | cons b l ih =>
      rw [List.foldl_cons]
      rcases max_choice a b with h | h <;> rw [h]
      · rcases List.mem_cons.mp (ih a) with h2 | h2
        · rw [h2]; simp
        · simp [h2]
      · exact List.mem_cons_of_mem _ (ih b)

theorem widthSpec_of {pos : ℕ → Fin d → ℝ} {edges : List (ℕ × ℕ)} {relwidth abswidth : Option ℝ} {g : Grid d} {lens : List ℝ}
    (hg : g.width = optimalWidth lens abswidth relwidth (List.ofFn fun e => g.hi e - g.lo e)) (h1 : ∀ i j, (i, j) ∈ edges → dist2 pos i j ∈ lens) (h2 : ∀ x ∈ lens, ∃ i j, (i, j) ∈ edges ∧ x = dist2 pos i j) :
    WidthSpec pos edges relwidth abswidth g := by
  refine ⟨?_, ?_, ?_⟩
  · rintro w rfl; exact hg
  · rintro rfl r rfl hd
    have hg : g.width = r * lmax (List.ofFn fun e => g.hi e - g.lo e) := hg
    have hne : (List.ofFn fun e => g.hi e - g.lo e) ≠ [] := by
      intro h; have := congrArg List.length h; simp at this; omega
    refine ⟨?_, fun hr e => ?_⟩
    · obtain ⟨e, he⟩ := (List.mem_ofFn).mp (lmax_mem _ hne)
      exact ⟨e, by rw [hg, ← he]⟩
    · rw [hg]
      exact mul_le_mul_of_nonneg_left (le_lmax (List.mem_ofFn.mpr ⟨e, rfl⟩)) hr
  · rintro rfl rfl p q hpq hpos hmax
    obtain ⟨⟨s, hs, hw, hlt, hmin⟩, -⟩ := optimalWidth_default (h1 p q hpq) hpos (fun x hx => by obtain ⟨i, j, hij, rfl⟩ := h2 x hx; exact hmax i j hij) (List.ofFn fun e => g.hi e - g.lo e)
    obtain ⟨i, j, hij, rfl⟩ := h2 s hs
    exact ⟨i, j, hij, by rw [hg, hw], hlt, fun k l hkl h => hmin _ (h1 k l hkl) h⟩

/-- C145.  The width of the bumps of `interpolate_current`. -/
theorem interpolateCurrent_width {pos : ℕ → Fin d → ℝ} {edges : List (ℕ × ℕ)} (h : GraphOk edges) {current : List ℝ} {relwidth abswidth : Option ℝ} {n : ℕ} {f : Field d d} {g : Grid d}
    (hf : interpolateCurrent pos edges current relwidth abswidth n = .ok (f, g)) : WidthSpec pos edges relwidth abswidth g := by
  simp only [interpolateCurrent] at hf
  split at hf
  · cases hf
  · rename_i hlen
    have hlen : current.length = edges.length := not_not.mp hlen
    obtain ⟨h1, h2⟩ := oneWay_facts h hlen
    have hz := zip_keys edges current hlen
    obtain ⟨-, -, h3, -, -⟩ := oneWay_keys (edges.zip current) [] (by simp) (by rw [hz]; exact h.nodup) (by simp)
      (fun e he hne => h.irrefl e.1.1 (by
        have : e.1 ∈ edges := by rw [← hz]; exact List.mem_map_of_mem he
        convert this using 1
        exact Prod.ext rfl hne)) (by simp)
    simp only [oneWay, h1, ne_eq, not_true_eq_false, if_false, Except.bind] at hf
    split at hf
    · cases hf
    · rw [interpolateField] at hf
      cases ha : crossSections[d - 1]? with
      | none => rw [ha] at hf; simp [Except.map] at hf
      | some a =>
        rw [ha] at hf
        simp only [Option.elim, Except.map, Except.ok.injEq, Prod.mk.injEq] at hf
        obtain ⟨-, rfl⟩ := hf
        refine widthSpec_of (lens := (((edges.zip current).foldl oneWayStep []).map fun a => (⟨pos a.1.2, pos a.1.1, a.2 / 2⟩ : Elem d)).map Elem.len) rfl (fun i j hij => ?_) (fun x hx => ?_)
        · have key : ∀ p q, (p, q) ∈ ((edges.zip current).foldl oneWayStep []).map Prod.fst → dist2 pos p q ∈ (((edges.zip current).foldl oneWayStep []).map fun a => (⟨pos a.1.2, pos a.1.1, a.2 / 2⟩ : Elem d)).map Elem.len := by
            intro p q hpq
            obtain ⟨a, ha', hpq⟩ := List.mem_map.mp hpq
            rw [List.map_map]
            refine List.mem_map.mpr ⟨a, ha', ?_⟩
            simp only [Function.comp, Elem.len, hpq, dist2_eq]
          rcases h2 i j hij with h5 | h5
          · exact key i j h5
          · rw [dist2_comm]; exact key j i h5
        · rw [List.map_map] at hx
          obtain ⟨a, ha', rfl⟩ := List.mem_map.mp hx
          refine ⟨a.1.1, a.1.2, ?_, by simp only [Function.comp, Elem.len, dist2_eq]⟩
          have := (h3 a.1 (List.mem_map_of_mem ha')).resolve_left (by simp)
          rwa [hz] at this

/-- C146.  The width of the bumps of `interpolate_density`. -/
theorem interpolateDensity_width {N : ℕ} {pos : ℕ → Fin d → ℝ} {edges : List (ℕ × ℕ)} {density : List ℝ} {relwidth abswidth : Option ℝ} {n : ℕ} {f : Field d 1} {g : Grid d}
    (h : interpolateDensity N pos edges density relwidth abswidth n = .ok (f, g)) : WidthSpec pos edges relwidth abswidth g := by
  obtain ⟨-, -, hg, -⟩ := interpolateDensity_unfold h
  have hw : g.width = optimalWidth (edges.map fun p => Real.sqrt (sumSq fun e => pos p.1 e - pos p.2 e)) abswidth relwidth (List.ofFn fun e => g.hi e - g.lo e) := by
    rw [hg]; simp only [densityGrid, gridOf]
  refine widthSpec_of hw (fun i j hij => ?_) (fun x hx => ?_)
  · exact List.mem_map.mpr ⟨(i, j), hij, by simp only [dist2_eq]⟩
  · obtain ⟨p, hp, rfl⟩ := List.mem_map.mp hx
    exact ⟨p.1, p.2, hp, by simp only [dist2_eq]⟩

/-- C145, C146.  Arrays of the wrong length are refused. -/
theorem interpolate_refused {N : ℕ} (pos : ℕ → Fin d → ℝ) (edges : List (ℕ × ℕ)) (values : List ℝ) (relwidth abswidth : Option ℝ) (n : ℕ) :
    (values.length ≠ edges.length → interpolateCurrent pos edges values relwidth abswidth n = .error .value) ∧
    (values.length ≠ N → interpolateDensity N pos edges values relwidth abswidth n = .error .value) :=
  ⟨fun h => by rw [interpolateCurrent, if_pos h], fun h => by rw [interpolateDensity, if_pos h]⟩

/-- A hopping between two sites in the plane meets the hypotheses: with the default width, the width is 4. -/
example : ∃ (f : Field 2 2) (g : Grid 2), interpolateCurrent (fun i e => if i = 1 ∧ e = 0 then 1 else 0) [(0, 1), (1, 0)] [1, -1] none none 9 = .ok (f, g) ∧ g.width = 4 := by
  have hG : GraphOk [(0, 1), (1, 0)] := ⟨by decide, fun i => by simp; omega, fun i j => by simp; omega⟩
  obtain ⟨f, g, h⟩ := interpolateCurrent_succeeds (d := 2) (pos := fun i e => if i = 1 ∧ e = 0 then 1 else 0) hG (by simp) (by norm_num) (by norm_num) (current := [1, -1]) rfl none none 9
  refine ⟨f, g, h, ?_⟩
  have hd : ∀ i j, (i, j) ∈ [(0, 1), (1, 0)] → dist2 (d := 2) (fun i e => if i = 1 ∧ e = 0 then 1 else 0) i j = 1 := by
    intro i j hij
    simp only [List.mem_cons, Prod.mk.injEq, List.not_mem_nil, or_false] at hij
    rcases hij with ⟨rfl, rfl⟩ | ⟨rfl, rfl⟩ <;> simp [dist2]
  obtain ⟨i, j, hij, hw, -⟩ := (interpolateCurrent_width hG h).default rfl rfl 0 1 (by simp) (by rw [hd 0 1 (by simp)]; norm_num) (fun i j hij => by rw [hd i j hij, hd 0 1 (by simp)])
  rw [hw, hd i j hij]; norm_num

/-- The plane between these sites, with bumps that are narrow enough, meets the hypothesis of the theorem on the flux. -/
example : ∀ k ∈ [(0, 1), (1, 0)], ((fun i (e : Fin 2) => if i = 1 ∧ e = 0 then (1 : ℝ) else 0) k.1 0 ≤ 1 / 2 - 1 / 2 ∨ 1 / 2 + 1 / 2 ≤ (fun i (e : Fin 2) => if i = 1 ∧ e = 0 then (1 : ℝ) else 0) k.1 0) ∧
    ((fun i (e : Fin 2) => if i = 1 ∧ e = 0 then (1 : ℝ) else 0) k.2 0 ≤ 1 / 2 - 1 / 2 ∨ 1 / 2 + 1 / 2 ≤ (fun i (e : Fin 2) => if i = 1 ∧ e = 0 then (1 : ℝ) else 0) k.2 0) := by
  intro k hk
  simp only [List.mem_cons, List.not_mem_nil, or_false] at hk
  rcases hk with rfl | rfl <;> norm_num

end Kwant.Plot
