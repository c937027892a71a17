import Verif.Plot.Kernel

/-! C145: the fields are the smoothed currents and densities at the points of the grid. -/

set_option linter.unusedSectionVars false

namespace Kwant.Plot

variable {d : ℕ}

theorem foldl_min_le (l : List ℝ) : ∀ x, l.foldl min x ≤ x ∧ ∀ y ∈ l, l.foldl min x ≤ y := by
  induction l with
  | nil => intro x; simp
  | cons a l ih =>
    intro x
    obtain ⟨h1, h2⟩ := ih (min x a)
    refine ⟨h1.trans (min_le_left _ _), fun y hy => ?_⟩
    rcases List.mem_cons.mp hy with rfl | hy
    · exact h1.trans (min_le_right _ _)
    · exact h2 y hy

theorem lmin_le {l : List ℝ} {y : ℝ} (h : y ∈ l) : lmin l ≤ y := by
  cases l with
  | nil => simp at h
  | cons x l =>
    rcases List.mem_cons.mp h with rfl | h
    · exact (foldl_min_le l _).1
    · exact (foldl_min_le l _).2 y h

theorem foldl_max_le (l : List ℝ) : ∀ x, x ≤ l.foldl max x ∧ ∀ y ∈ l, y ≤ l.foldl max x := by
  induction l with
  | nil => intro x; simp
  | cons a l ih =>
    intro x
    obtain ⟨h1, h2⟩ := ih (max x a)
    refine ⟨(le_max_left _ _).trans h1, fun y hy => ?_⟩
    rcases List.mem_cons.mp hy with rfl | hy
    · exact (le_max_right _ _).trans h1
    · exact h2 y hy

theorem le_lmax {l : List ℝ} {y : ℝ} (h : y ∈ l) : y ≤ lmax l := by
  cases l with
  | nil => simp at h
  | cons x l =>
    rcases List.mem_cons.mp h with rfl | h
    · exact (foldl_max_le l _).1
    · exact (foldl_max_le l _).2 y h

theorem shapeOf_even (size width : ℝ) (n : ℕ) : shapeOf size width n % 2 = 0 := by
  simp only [shapeOf]; split <;> omega

theorem shapeOf_pos {size width : ℝ} {n : ℕ} (hs : 0 ≤ size) (hw : 0 < width) (hn : 1 ≤ n) : 2 ≤ shapeOf size width n := by
  have h1 : n ≤ ⌊size * n / width + n⌋₊ := Nat.le_floor (by have : 0 ≤ size * n / width := by positivity
                                                            linarith)
  simp only [shapeOf]; split <;> omega

/-- A grid as it is made. -/
structure Grid.Ok (g : Grid d) : Prop where
  width : 0 < g.width
  le : ∀ e, g.lo e ≤ g.hi e
  shape : ∀ e, 2 ≤ g.shape e

theorem Grid.Ok.densPos {g : Grid d} (h : g.Ok) (e : Fin d) : 0 < g.density e := by
  have h1 := h.width; have h2 := h.le e; have h3 := h.shape e
  have h4 : (2 : ℝ) ≤ g.shape e := by exact_mod_cast h3
  unfold Grid.density Grid.pad
  exact div_pos (by linarith) (by linarith)

theorem Grid.Ok.point {g : Grid d} (h : g.Ok) (idx : Fin d → ℕ) (e : Fin d) : g.point idx e = g.lo e - g.pad + idx e / g.density e := by
  have h1 := h.width; have h2 := h.le e; have h3 := h.shape e
  have h4 : (2 : ℝ) ≤ g.shape e := by exact_mod_cast h3
  rw [Grid.point, Grid.density]
  congr 1
  rw [show g.hi e + g.pad - (g.lo e - g.pad) = g.hi e + 2 * g.pad - g.lo e by ring, div_div_eq_mul_div, mul_div_assoc]

/-- Points with an index outside of the slice are farther away than half the width, in one direction. -/
theorem Grid.Ok.outside {g : Grid d} (h : g.Ok) {mn mx : Fin d → ℝ} {idx : Fin d → ℕ} {e : Fin d} (ho : ¬ (g.start mn e ≤ idx e ∧ (idx e : ℤ) < g.stop mx e)) :
    g.point idx e ≤ mn e - g.width / 2 ∨ mx e + g.width / 2 ≤ g.point idx e := by
  have hd := h.densPos e
  rw [h.point]
  have hpad : g.pad = g.width / 2 := rfl
  by_cases h1 : g.start mn e ≤ idx e
  · right
    have h2 : g.stop mx e ≤ idx e := by
      by_contra h3; exact ho ⟨h1, by omega⟩
    have h3 : (mx e + 2 * g.pad - g.lo e) * g.density e ≤ (idx e : ℤ) := Int.ceil_le.mp h2
    have h4 : mx e + 2 * g.pad - g.lo e ≤ idx e / g.density e := by rw [le_div_iff₀ hd]; exact_mod_cast h3
    rw [hpad] at *
    linarith
  · left
    have h2 : ((idx e : ℤ) : ℝ) ≤ (mn e - g.lo e) * g.density e := Int.le_floor.mp (by rw [Grid.start] at h1; omega)
    have h4 : idx e / g.density e ≤ mn e - g.lo e := by rw [div_le_iff₀ hd]; exact_mod_cast h2
    rw [hpad] at *
    linarith

theorem Grid.Ok.nonempty {g : Grid d} (h : g.Ok) {mn mx : Fin d → ℝ} (hm : ∀ e, mn e ≤ mx e) : ¬ ∃ e, g.stop mx e - g.start mn e = 0 := by
  rintro ⟨e, he⟩
  have hd := h.densPos e
  have h1 := Int.floor_le ((mn e - g.lo e) * g.density e)
  have h2 := Int.le_ceil ((mx e + 2 * g.pad - g.lo e) * g.density e)
  have h3 : g.stop mx e = g.start mn e := by omega
  rw [Grid.stop, Grid.start] at h3
  rw [h3] at h2
  have h4 : 0 < g.pad := by have := h.width; unfold Grid.pad; linarith
  have := hm e
  nlinarith

/-- The loop over the elements. -/
theorem foldl_addElem {k : ℕ} {g : Grid d} (h : g.Ok) {kernel : Elem d → (Fin d → ℝ) → Fin k → ℝ} (els : List (Elem d))
    (hk : ∀ el ∈ els, ∀ idx e c, (g.point idx e ≤ min (el.p0 e) (el.p1 e) - g.width / 2 ∨ max (el.p0 e) (el.p1 e) + g.width / 2 ≤ g.point idx e) → kernel el (fun e => (g.point idx e - el.p0 e) * g.scale) c = 0) :
    ∀ (f : Field d k) idx c, els.foldl (addElem g kernel) f idx c = f idx c + (els.map fun el => kernel el (fun e => (g.point idx e - el.p0 e) * g.scale) c * el.val).sum := by
  induction els with
  | nil => intro f idx c; simp
  | cons el els ih =>
    intro f idx c
    rw [List.foldl_cons, ih (fun el' he' => hk el' (by simp [he'])), List.map_cons, List.sum_cons, ← add_assoc]
    congr 1
    simp only [addElem]
    by_cases hv : el.val = 0
    · rw [if_pos (.inr hv), hv]; simp
    · rw [if_neg (by rintro (h1 | h1); exacts [h.nonempty (fun e => min_le_max) h1, hv h1])]
      split
      · rfl
      · rename_i hn
        obtain ⟨e, he⟩ := not_forall.mp hn
        rw [hk el (by simp) idx e c (h.outside he)]; simp

theorem lineField_swap (width : ℝ) (p q x : Fin d → ℝ) (c : Fin d) : lineField width q p x c = - lineField width p q x c := by
  unfold lineField
  have := intervalIntegral.integral_comp_sub_left (a := 0) (b := 1) (fun t => bumpAt width (fun e => x e - (p e + t * (q e - p e))) * (q c - p c)) 1
  rw [sub_self, sub_zero] at this
  rw [← this, ← intervalIntegral.integral_neg]
  refine intervalIntegral.integral_congr fun t _ => ?_
  beta_reduce
  rw [show (fun e => x e - (p e + (1 - t) * (q e - p e))) = fun e => x e - (q e + t * (p e - q e)) by funext e; ring]
  ring

theorem sum_modify (g : ℕ × ℕ → ℝ) (key : ℕ × ℕ) (v : ℝ) (acc : List ((ℕ × ℕ) × ℝ)) : (acc.map Prod.fst).Nodup → key ∈ acc.map Prod.fst →
    ((acc.map fun a => if a.1 = key then (a.1, a.2 - v) else a).map fun a => a.2 * g a.1).sum = (acc.map fun a => a.2 * g a.1).sum - v * g key := by
  induction acc with
  | nil => intro _ h; simp at h
  | cons a acc ih =>
    intro hn hk
    simp only [List.map_cons, List.nodup_cons] at hn
    simp only [List.map_cons, List.sum_cons]
    by_cases ha : a.1 = key
    · rw [if_pos ha]
      have : (acc.map fun a => if a.1 = key then (a.1, a.2 - v) else a) = acc := by
        conv_rhs => rw [← List.map_id acc]
        refine List.map_congr_left fun b hb => ?_
        rw [if_neg, id]
        rintro rfl
        exact hn.1 (by rw [ha]; exact List.mem_map_of_mem hb)
      rw [this, ha]; ring
    · rw [if_neg ha, ih hn.2 (by simpa [Ne.symm ha] using hk)]; ring

theorem keys_modify (key : ℕ × ℕ) (v : ℝ) (acc : List ((ℕ × ℕ) × ℝ)) : (acc.map fun a => if a.1 = key then (a.1, a.2 - v) else a).map Prod.fst = acc.map Prod.fst := by
  rw [List.map_map]
  refine List.map_congr_left fun a _ => ?_
  simp only [Function.comp]
  split <;> rfl

/-- The currents each way are combined without changing the field. -/
theorem oneWay_sum (g : ℕ × ℕ → ℝ) (hg : ∀ i j, g (j, i) = - g (i, j)) (es : List ((ℕ × ℕ) × ℝ)) : ∀ acc : List ((ℕ × ℕ) × ℝ), (acc.map Prod.fst).Nodup → (es.map Prod.fst).Nodup →
    (∀ e ∈ es, e.1 ∉ acc.map Prod.fst) →
    ((es.foldl oneWayStep acc).map fun a => a.2 * g a.1).sum = (acc.map fun a => a.2 * g a.1).sum + (es.map fun a => a.2 * g a.1).sum := by
  induction es with
  | nil => intro acc _ _ _; simp
  | cons e es ih =>
    intro acc hn hes hd
    simp only [List.map_cons, List.nodup_cons] at hes
    rw [List.foldl_cons, List.map_cons, List.sum_cons]
    by_cases hk : (e.1.2, e.1.1) ∈ acc.map Prod.fst
    · rw [oneWayStep, if_pos hk, ih _ (by rw [keys_modify]; exact hn) hes.2 (by rw [keys_modify]; exact fun e' he' => hd e' (by simp [he'])), sum_modify g _ _ _ hn hk, hg]
      ring
    · rw [oneWayStep, if_neg hk, ih _ ?_ hes.2 ?_]
      · simp; ring
      · rw [List.map_append]
        refine List.nodup_append.mpr ⟨hn, by simp, ?_⟩
        intro a ha b hb
        simp only [List.map_cons, List.map_nil, List.mem_singleton] at hb
        subst hb
        rintro rfl
        exact hd e (by simp) ha
      · intro e' he'
        rw [List.map_append, List.mem_append]
        rintro (h1 | h1)
        · exact hd e' (by simp [he']) h1
        · simp only [List.map_cons, List.map_nil, List.mem_singleton] at h1
          exact hes.1 (by rw [← h1]; exact List.mem_map_of_mem he')

theorem zip_keys (edges : List (ℕ × ℕ)) (current : List ℝ) (h : current.length = edges.length) : (edges.zip current).map Prod.fst = edges := by
  rw [List.map_fst_zip]; omega

theorem ok_of_els {els : List (Elem d)} {abswidth relwidth : Option ℝ} {n : ℕ} (hne : els ≠ []) (hn : 1 ≤ n) (hw : 0 < (currentGrid els abswidth relwidth n).width) : (currentGrid els abswidth relwidth n).Ok := by
  have hle : ∀ e, (currentGrid els abswidth relwidth n).lo e ≤ (currentGrid els abswidth relwidth n).hi e := by
    intro e
    obtain ⟨el, l, rfl⟩ := List.exists_cons_of_ne_nil hne
    have h1 : lmin ((el :: l).map fun el => min (el.p0 e) (el.p1 e)) ≤ min (el.p0 e) (el.p1 e) := lmin_le (by simp)
    have h2 : max (el.p0 e) (el.p1 e) ≤ lmax ((el :: l).map fun el => max (el.p0 e) (el.p1 e)) := le_lmax (by simp)
    exact h1.trans (min_le_max.trans h2)
  exact ⟨hw, hle, fun e => shapeOf_pos (by have := hle e; simp only [currentGrid, gridOf] at this; linarith) hw hn⟩

/-- C145.  The field of `interpolate_current` is, at every point of the grid, the discrete current convoluted with the bump, up to one factor. -/
theorem interpolateCurrent_value {pos : ℕ → Fin d → ℝ} {edges : List (ℕ × ℕ)} {current : List ℝ} {relwidth abswidth : Option ℝ} {n : ℕ} (hn : 1 ≤ n) (he : edges.Nodup) {f : Field d d} {g : Grid d}
    (h : interpolateCurrent pos edges current relwidth abswidth n = .ok (f, g)) (hw : 0 < g.width) :
    ∃ a, crossSections[d - 1]? = some a ∧ ∀ idx c, f idx c = (2 / g.width) ^ 2 / a * smoothCurrent g.width pos edges current (g.point idx) c := by
  simp only [interpolateCurrent] at h
  split at h
  · cases h
  · rename_i hlen
    have hlen : current.length = edges.length := not_not.mp hlen
    simp only [oneWay] at h
    split at h
    · cases h
    · simp only [Except.bind] at h
      split at h
      · cases h
      · rename_i hne
        set els := ((edges.zip current).foldl oneWayStep []).map fun a => (⟨pos a.1.2, pos a.1.1, a.2 / 2⟩ : Elem d) with hels
        set g' := currentGrid els abswidth relwidth n with hg'
        rw [interpolateField] at h
        cases ha : crossSections[d - 1]? with
        | none => rw [ha] at h; simp [Except.map] at h
        | some a =>
          rw [ha] at h
          simp only [Option.elim, Except.map, Except.ok.injEq, Prod.mk.injEq] at h
          obtain ⟨rfl, rfl⟩ := h
          refine ⟨a, rfl, fun idx c => ?_⟩
          have hok : g'.Ok := ok_of_els hne hn hw
          have hker : ∀ el ∈ els, ∀ idx c, currentKernel el.dir (el.len * g'.scale) (fun e => (g'.point idx e - el.p0 e) * g'.scale) c = g'.scale * lineField g'.width el.p0 el.p1 (g'.point idx) c :=
            fun el _ idx c => currentKernel_eq el g'.width (g'.point idx) c
          beta_reduce
          rw [foldl_addElem hok els ?_ (fun _ _ => 0) idx c, zero_add]
          · rw [List.map_congr_left (g := fun el => g'.scale * (lineField g'.width el.p0 el.p1 (g'.point idx) c * el.val)) (fun el hel => by rw [hker el hel]; ring), List.sum_map_mul_left, hels, List.map_map,
              List.map_congr_left (g := fun b : (ℕ × ℕ) × ℝ => (1 / 2 : ℝ) * (b.2 * (fun q : ℕ × ℕ => lineField g'.width (pos q.2) (pos q.1) (g'.point idx) c) b.1)) (fun b _ => by simp only [Function.comp]; ring), List.sum_map_mul_left,
              oneWay_sum (fun q : ℕ × ℕ => lineField g'.width (pos q.2) (pos q.1) (g'.point idx) c) (fun i j => lineField_swap _ _ _ _ _) (edges.zip current) [] (by simp) (by rw [zip_keys _ _ hlen]; exact he) (by simp)]
            simp only [List.map_nil, List.sum_nil, zero_add, smoothCurrent, Grid.scale]
            ring
          · intro el hel idx e c hfar
            rw [hker el hel, lineField_far hok.width e c hfar, mul_zero]

end Kwant.Plot
