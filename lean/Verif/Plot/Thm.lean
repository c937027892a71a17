import Verif.Plot.Main

/-! C145, C146: success, border, density. -/

set_option linter.unusedSectionVars false

namespace Kwant.Plot

variable {d : ℕ}

theorem oneWay_keys (es : List ((ℕ × ℕ) × ℝ)) : ∀ acc : List ((ℕ × ℕ) × ℝ), (acc.map Prod.fst).Nodup → (es.map Prod.fst).Nodup → (∀ e ∈ es, e.1 ∉ acc.map Prod.fst) → (∀ e ∈ es, e.1.1 ≠ e.1.2) →
    (∀ i j, (i, j) ∈ acc.map Prod.fst → (j, i) ∉ acc.map Prod.fst) →
    ((es.foldl oneWayStep acc).map Prod.fst).Nodup ∧ (∀ k ∈ acc.map Prod.fst, k ∈ (es.foldl oneWayStep acc).map Prod.fst) ∧
    (∀ k ∈ (es.foldl oneWayStep acc).map Prod.fst, k ∈ acc.map Prod.fst ∨ k ∈ es.map Prod.fst) ∧
    (∀ i j, (i, j) ∈ es.map Prod.fst → (i, j) ∈ (es.foldl oneWayStep acc).map Prod.fst ∨ (j, i) ∈ (es.foldl oneWayStep acc).map Prod.fst) ∧
    (∀ i j, (i, j) ∈ (es.foldl oneWayStep acc).map Prod.fst → (j, i) ∉ (es.foldl oneWayStep acc).map Prod.fst) := by
  induction es with
  | nil => intro acc hn _ _ _ ha; exact ⟨hn, fun k h => h, fun k h => .inl h, by simp, ha⟩
  | cons e es ih =>
    intro acc hn hes hd hl ha
    simp only [List.map_cons, List.nodup_cons] at hes
    rw [List.foldl_cons]
    by_cases hk : (e.1.2, e.1.1) ∈ acc.map Prod.fst
    · rw [oneWayStep, if_pos hk]
      have hkeys := keys_modify (e.1.2, e.1.1) e.2 acc
      obtain ⟨h1, h2, h3, h4, h5⟩ := ih _ (by rw [hkeys]; exact hn) hes.2 (by rw [hkeys]; exact fun e' he' => hd e' (by simp [he'])) (fun e' he' => hl e' (by simp [he'])) (by rw [hkeys]; exact ha)
      rw [hkeys] at h2 h3
      refine ⟨h1, h2, fun k hk' => (h3 k hk').imp_right (by simp +contextual), fun i j hij => ?_, h5⟩
      rw [List.map_cons, List.mem_cons] at hij
      rcases hij with hij | hij
      · right; rw [← hij] at hk; exact h2 _ hk
      · exact h4 i j hij
    · rw [oneWayStep, if_neg hk]
      have g1 : ((acc ++ [e]).map Prod.fst).Nodup := by
        rw [List.map_append]
        refine List.nodup_append.mpr ⟨hn, by simp, ?_⟩
        intro a ha' b hb
        simp only [List.map_cons, List.map_nil, List.mem_singleton] at hb
        subst hb
        rintro rfl
        exact hd e (by simp) ha'
      have g2 : ∀ e' ∈ es, e'.1 ∉ (acc ++ [e]).map Prod.fst := by
        intro e' he'
        rw [List.map_append, List.mem_append]
        rintro (h1 | h1)
        · exact hd e' (by simp [he']) h1
        · simp only [List.map_cons, List.map_nil, List.mem_singleton] at h1
          exact hes.1 (by rw [← h1]; exact List.mem_map_of_mem he')
      have g3 : ∀ i j, (i, j) ∈ (acc ++ [e]).map Prod.fst → (j, i) ∉ (acc ++ [e]).map Prod.fst := by
        intro i j hij
        rw [List.map_append, List.mem_append] at hij ⊢
        simp only [List.map_cons, List.map_nil, List.mem_singleton] at hij ⊢
        rintro (h1 | h1)
        · rcases hij with h2 | h2
          · exact ha i j h2 h1
          · exact hk (by rw [← h2]; exact h1)
        · rcases hij with h2 | h2
          · exact hk (by rw [← h1]; exact h2)
          · have := hl e (by simp)
            rw [← h1] at this
            rw [← h1] at h2
            simp only [Prod.mk.injEq] at h2
            exact this h2.2
      obtain ⟨h1, h2, h3, h4, h5⟩ := ih (acc ++ [e]) g1 hes.2 g2 (fun e' he' => hl e' (by simp [he'])) g3
      refine ⟨h1, fun k hk' => h2 k (by rw [List.map_append, List.mem_append]; exact .inl hk'), fun k hk' => ?_, fun i j hij => ?_, h5⟩
      · rcases h3 k hk' with h | h
        · rw [List.map_append, List.mem_append] at h
          rcases h with h | h
          · exact .inl h
          · right; simp only [List.map_cons, List.map_nil, List.mem_singleton] at h; rw [h]; simp
        · right; rw [List.map_cons]; exact List.mem_cons_of_mem _ h
      · rw [List.map_cons, List.mem_cons] at hij
        rcases hij with hij | hij
        · left; rw [hij]; exact h2 _ (by simp)
        · exact h4 i j hij

/-- The graph of a finalized system: no repeated edges and no loops, and with every edge its reverse. -/
structure GraphOk (edges : List (ℕ × ℕ)) : Prop where
  nodup : edges.Nodup
  irrefl : ∀ i, (i, i) ∉ edges
  symm : ∀ i j, (i, j) ∈ edges → (j, i) ∈ edges

theorem oneWay_facts {edges : List (ℕ × ℕ)} (h : GraphOk edges) {current : List ℝ} (hlen : current.length = edges.length) :
    ((edges.zip current).foldl oneWayStep []).length = edges.length / 2 ∧
    ∀ i j, (i, j) ∈ edges → (i, j) ∈ ((edges.zip current).foldl oneWayStep []).map Prod.fst ∨ (j, i) ∈ ((edges.zip current).foldl oneWayStep []).map Prod.fst := by
  have hz := zip_keys edges current hlen
  obtain ⟨h1, -, h3, h4, h5⟩ := oneWay_keys (edges.zip current) [] (by simp) (by rw [hz]; exact h.nodup) (by simp)
    (fun e he hne => h.irrefl e.1.1 (by
      have : e.1 ∈ edges := by rw [← hz]; exact List.mem_map_of_mem he
      convert this using 1
      exact Prod.ext rfl hne)) (by simp)
  rw [hz] at h3 h4
  refine ⟨?_, h4⟩
  set K := ((edges.zip current).foldl oneWayStep []).map Prod.fst with hK
  have hswap : ∀ i j, (i, j) ∈ K.map Prod.swap ↔ (j, i) ∈ K := by
    intro i j
    simp only [List.mem_map, Prod.swap_eq_iff_eq_swap, Prod.swap_prod_mk]
    exact ⟨by rintro ⟨a, ha, rfl⟩; exact ha, fun ha => ⟨_, ha, rfl⟩⟩
  have hp : edges.Perm (K ++ K.map Prod.swap) := by
    refine (List.perm_ext_iff_of_nodup h.nodup ?_).mpr ?_
    · refine List.nodup_append.mpr ⟨h1, h1.map Prod.swap_injective, ?_⟩
      rintro ⟨i, j⟩ hij b hb rfl
      exact h5 i j hij ((hswap i j).mp hb)
    · rintro ⟨i, j⟩
      rw [List.mem_append, hswap]
      refine ⟨fun hij => h4 i j hij, ?_⟩
      rintro (hij | hij)
      · exact (h3 _ hij).resolve_left (by simp)
      · exact h.symm _ _ ((h3 _ hij).resolve_left (by simp))
  have := hp.length_eq
  rw [List.length_append, List.length_map (f := Prod.swap)] at this
  have hKl : ((edges.zip current).foldl oneWayStep []).length = K.length := by rw [hK, List.length_map]
  omega

/-- C145.  `interpolate_current` succeeds for the graph of a finalized system in one, two or three dimensions, if there is one current for every edge and there are edges at all. -/
theorem interpolateCurrent_succeeds {pos : ℕ → Fin d → ℝ} {edges : List (ℕ × ℕ)} (h : GraphOk edges) (hne : edges ≠ []) (hd : 1 ≤ d) (hd3 : d ≤ 3) {current : List ℝ}
    (hlen : current.length = edges.length) (relwidth abswidth : Option ℝ) (n : ℕ) : ∃ f g, interpolateCurrent pos edges current relwidth abswidth n = .ok (f, g) := by
  obtain ⟨h1, h2⟩ := oneWay_facts h hlen
  have h3 : ((edges.zip current).foldl oneWayStep []).map (fun a => (⟨pos a.1.2, pos a.1.1, a.2 / 2⟩ : Elem d)) ≠ [] := by
    obtain ⟨⟨i, j⟩, l, rfl⟩ := List.exists_cons_of_ne_nil hne
    intro h4
    rw [List.map_eq_nil_iff] at h4
    rcases h2 i j (by simp) with h5 | h5 <;> (rw [h4] at h5; simp at h5)
  have h4 : ∃ a, crossSections[d - 1]? = some a := by
    rw [← Option.isSome_iff_exists]
    simp [crossSections]
    omega
  obtain ⟨a, ha⟩ := h4
  simp only [interpolateCurrent, oneWay, hlen, ne_eq, not_true_eq_false, if_false, h1, Except.bind, h3, interpolateField, ha, Option.elim, Except.map]
  exact ⟨_, _, rfl⟩

/-- What the grid is. -/
theorem currentGrid_facts {pos : ℕ → Fin d → ℝ} {edges : List (ℕ × ℕ)} (h : GraphOk edges) {current : List ℝ} {relwidth abswidth : Option ℝ} {n : ℕ} (hn : 1 ≤ n) {f : Field d d} {g : Grid d}
    (hf : interpolateCurrent pos edges current relwidth abswidth n = .ok (f, g)) (hw : 0 < g.width) :
    g.Ok ∧ (∀ e, g.shape e % 2 = 0) ∧ ∀ i j, (i, j) ∈ edges → ∀ e, (g.lo e ≤ pos i e ∧ pos i e ≤ g.hi e) ∧ g.lo e ≤ pos j e ∧ pos j e ≤ g.hi e := by
  simp only [interpolateCurrent] at hf
  split at hf
  · cases hf
  · rename_i hlen
    have hlen : current.length = edges.length := not_not.mp hlen
    obtain ⟨h1, h2⟩ := oneWay_facts h hlen
    simp only [oneWay, h1, ne_eq, not_true_eq_false, if_false, Except.bind] at hf
    split at hf
    · cases hf
    · rename_i hne
      rw [interpolateField] at hf
      cases ha : crossSections[d - 1]? with
      | none => rw [ha] at hf; simp [Except.map] at hf
      | some a =>
        rw [ha] at hf
        simp only [Option.elim, Except.map, Except.ok.injEq, Prod.mk.injEq] at hf
        obtain ⟨-, rfl⟩ := hf
        refine ⟨ok_of_els hne hn hw, fun e => shapeOf_even _ _ _, fun i j hij e => ?_⟩
        have key : ∀ a ∈ (edges.zip current).foldl oneWayStep [], ((lmin ((((edges.zip current).foldl oneWayStep []).map (fun a => (⟨pos a.1.2, pos a.1.1, a.2 / 2⟩ : Elem d))).map fun el => min (el.p0 e) (el.p1 e)) ≤ min (pos a.1.2 e) (pos a.1.1 e)) ∧
            max (pos a.1.2 e) (pos a.1.1 e) ≤ lmax ((((edges.zip current).foldl oneWayStep []).map (fun a => (⟨pos a.1.2, pos a.1.1, a.2 / 2⟩ : Elem d))).map fun el => max (el.p0 e) (el.p1 e))) := by
          intro a ha'
          exact ⟨lmin_le (by simp only [List.mem_map, exists_exists_and_eq_and]; exact ⟨a, ha', rfl⟩), le_lmax (by simp only [List.mem_map, exists_exists_and_eq_and]; exact ⟨a, ha', rfl⟩)⟩
        have fin : ∀ p q, (p, q) ∈ ((edges.zip current).foldl oneWayStep []).map Prod.fst → ((lmin ((((edges.zip current).foldl oneWayStep []).map (fun a => (⟨pos a.1.2, pos a.1.1, a.2 / 2⟩ : Elem d))).map fun el => min (el.p0 e) (el.p1 e)) ≤ min (pos q e) (pos p e)) ∧
            max (pos q e) (pos p e) ≤ lmax ((((edges.zip current).foldl oneWayStep []).map (fun a => (⟨pos a.1.2, pos a.1.1, a.2 / 2⟩ : Elem d))).map fun el => max (el.p0 e) (el.p1 e))) := by
          intro p q hpq
          obtain ⟨a, ha', hpq⟩ := List.mem_map.mp hpq
          have := key a ha'
          rw [hpq] at this
          exact this
        have done : ∀ p q, (p, q) ∈ ((edges.zip current).foldl oneWayStep []).map Prod.fst → ∀ x, (x = p ∨ x = q) → (lmin ((((edges.zip current).foldl oneWayStep []).map (fun a => (⟨pos a.1.2, pos a.1.1, a.2 / 2⟩ : Elem d))).map fun el => min (el.p0 e) (el.p1 e)) ≤ pos x e ∧
            pos x e ≤ lmax ((((edges.zip current).foldl oneWayStep []).map (fun a => (⟨pos a.1.2, pos a.1.1, a.2 / 2⟩ : Elem d))).map fun el => max (el.p0 e) (el.p1 e))) := by
          intro p q hpq x hx
          obtain ⟨a1, a2⟩ := fin p q hpq
          rcases hx with rfl | rfl
          · exact ⟨a1.trans (min_le_right _ _), (le_max_right _ _).trans a2⟩
          · exact ⟨a1.trans (min_le_left _ _), (le_max_left _ _).trans a2⟩
        rcases h2 i j hij with h5 | h5
        · exact ⟨done i j h5 i (.inl rfl), done i j h5 j (.inr rfl)⟩
        · exact ⟨done j i h5 i (.inr rfl), done j i h5 j (.inl rfl)⟩

/-- The first and the last point in every direction. -/
theorem Grid.Ok.ends {g : Grid d} (h : g.Ok) (idx : Fin d → ℕ) (e : Fin d) : (idx e = 0 → g.point idx e = g.lo e - g.width / 2) ∧ (idx e = g.shape e - 1 → g.point idx e = g.hi e + g.width / 2) := by
  have h3 := h.shape e
  have h4 : (2 : ℝ) ≤ g.shape e := by exact_mod_cast h3
  have h5 := h.width; have h6 := h.le e
  rw [h.point]
  refine ⟨fun h0 => by rw [h0]; simp [Grid.pad], fun h1 => ?_⟩
  rw [h1, Nat.cast_sub (by omega), Grid.density, div_div_eq_mul_div, Nat.cast_one, mul_div_cancel_left₀ _ (by linarith)]
  unfold Grid.pad
  ring

/-- C145.  The field is zero at the border of the grid. -/
theorem interpolateCurrent_border {pos : ℕ → Fin d → ℝ} {edges : List (ℕ × ℕ)} (h : GraphOk edges) {current : List ℝ} {relwidth abswidth : Option ℝ} {n : ℕ} (hn : 1 ≤ n) {f : Field d d} {g : Grid d}
    (hf : interpolateCurrent pos edges current relwidth abswidth n = .ok (f, g)) (hw : 0 < g.width) {idx : Fin d → ℕ} {e : Fin d} (hb : idx e = 0 ∨ idx e = g.shape e - 1) (c : Fin d) : f idx c = 0 := by
  obtain ⟨hok, -, hbox⟩ := currentGrid_facts h hn hf hw
  obtain ⟨a, -, hv⟩ := interpolateCurrent_value hn h.nodup hf hw
  rw [hv, smoothCurrent]
  have : ((edges.zip current).map fun k => k.2 * lineField g.width (pos k.1.2) (pos k.1.1) (g.point idx) c).sum = 0 := by
    refine List.sum_eq_zero ?_
    intro y hy
    obtain ⟨k, hk, rfl⟩ := List.mem_map.mp hy
    obtain ⟨⟨h1, h2⟩, h3, h4⟩ := hbox k.1.1 k.1.2 (List.of_mem_zip hk).1 e
    rw [lineField_far hw e c, mul_zero]
    rcases hb with hb | hb
    · left; rw [(hok.ends idx e).1 hb]; have := le_min h3 h1; linarith
    · right; rw [(hok.ends idx e).2 hb]; have := max_le h4 h2; linarith
  rw [this]; ring

/-- C145.  The interpolation is linear. -/
theorem smoothCurrent_linear (width : ℝ) (pos : ℕ → Fin d → ℝ) (edges : List (ℕ × ℕ)) (c1 c2 : List ℝ) (h1 : c1.length = edges.length) (h2 : c2.length = edges.length) (a : ℝ) (x : Fin d → ℝ) (c : Fin d) :
    smoothCurrent width pos edges (List.zipWith (fun p q => p + a * q) c1 c2) x c = smoothCurrent width pos edges c1 x c + a * smoothCurrent width pos edges c2 x c := by
  have key : ∀ (es : List (ℕ × ℕ)) (c1 c2 : List ℝ), c1.length = es.length → c2.length = es.length → ∀ g : ℕ × ℕ → ℝ,
      ((es.zip (List.zipWith (fun p q => p + a * q) c1 c2)).map fun k => k.2 * g k.1).sum = ((es.zip c1).map fun k => k.2 * g k.1).sum + a * ((es.zip c2).map fun k => k.2 * g k.1).sum := by
    intro es
    induction es with
    | nil => intro c1 c2 _ _ g; simp
    | cons e es ih =>
      intro c1 c2 h1 h2 g
      obtain ⟨x1, c1, rfl⟩ := List.exists_of_length_succ c1 h1
      obtain ⟨x2, c2, rfl⟩ := List.exists_of_length_succ c2 h2
      simp only [List.zipWith_cons_cons, List.zip_cons_cons, List.map_cons, List.sum_cons]
      rw [ih c1 c2 (by simpa using h1) (by simpa using h2) g]
      ring
  unfold smoothCurrent
  rw [key edges c1 c2 h1 h2 fun q => lineField width (pos q.2) (pos q.1) x c]
  ring

end Kwant.Plot
