import Verif.Leads.ChiralEx
import Verif.Leads.PhsCut

/-!
The groups of modes with equal velocity at a time-reversal invariant momentum (`make_proper_modes`, kwant/physics/leads.py l.757-785).
-/

set_option linter.unusedSectionVars false

namespace Kwant.Leads
open Matrix Complex

variable {n : ℕ}

/-- Slices of a list between successive positions -/
theorem slices_flatten {α : Type} (l : List α) : ∀ (a : ℕ) (rest : List ℕ), (a :: rest).Pairwise (· < ·) →
    (((a :: rest).zip rest).map fun iv => (l.take iv.2).drop iv.1).flatten = (l.take ((a :: rest).getLast (List.cons_ne_nil _ _))).drop a
  | a, [], _ => by simp
  | a, b :: rest, h => by
    have hab : a < b := (List.pairwise_cons.mp h).1 b List.mem_cons_self
    have h2 := (List.pairwise_cons.mp h).2
    have hbl : b ≤ (b :: rest).getLast (List.cons_ne_nil _ _) := by
      rcases List.mem_cons.mp (List.getLast_mem (List.cons_ne_nil b rest)) with h3 | h3
      · exact h3.symm.le
      · exact ((List.pairwise_cons.mp h2).1 _ h3).le
    have ih := slices_flatten l b rest h2
    rw [List.zip_cons_cons, List.map_cons, List.flatten_cons, ih, List.getLast_cons (List.cons_ne_nil _ _)]
    generalize (b :: rest).getLast (List.cons_ne_nil _ _) = z at hbl
    dsimp only
    conv_rhs => rw [← List.take_append_drop b (l.take z)]
    rw [List.take_take, min_eq_left hbl]
    rcases Nat.lt_or_ge l.length a with h3 | h3
    · rw [List.drop_eq_nil_of_le (by simp; omega), List.drop_eq_nil_of_le (by simp; omega), List.drop_eq_nil_of_le (by simp; omega)]
      rfl
    · rw [List.drop_append]
      have : a - (l.take b).length = 0 := by simp; omega
      rw [this, List.drop_zero]

/-- The members of a slice -/
theorem mem_slice {k : ℕ} {a b : ℕ} {i : Fin k} : i ∈ ((List.finRange k).take b).drop a ↔ a ≤ i.val ∧ i.val < b := by
  rw [List.mem_iff_getElem]
  constructor
  · rintro ⟨j, hj, rfl⟩
    simp at hj ⊢
    omega
  · rintro ⟨h1, h2⟩
    refine ⟨i.val - a, ?_, ?_⟩
    · simp
      omega
    · ext
      simp
      omega

theorem zip_tail_mem : ∀ (a : ℕ) (rest : List ℕ), (a :: rest).Pairwise (· < ·) → ∀ iv ∈ (a :: rest).zip rest,
    iv.1 ∈ a :: rest ∧ iv.2 ∈ rest ∧ iv.1 < iv.2 ∧ ∀ x ∈ a :: rest, ¬(iv.1 < x ∧ x < iv.2)
  | a, [], _, iv, h => by simp at h
  | a, b :: rest, h, iv, hiv => by
    have hp := List.pairwise_cons.mp h
    rw [List.zip_cons_cons, List.mem_cons] at hiv
    rcases hiv with rfl | hiv
    · refine ⟨List.mem_cons_self, List.mem_cons_self, hp.1 b List.mem_cons_self, ?_⟩
      intro x hx hxx
      rcases List.mem_cons.mp hx with rfl | hx
      · exact lt_irrefl _ hxx.1
      · rcases List.mem_cons.mp hx with rfl | hx
        · exact lt_irrefl _ hxx.2
        · exact absurd ((List.pairwise_cons.mp hp.2).1 x hx) (not_lt.mpr hxx.2.le)
    · obtain ⟨h1, h2, h3, h4⟩ := zip_tail_mem b rest hp.2 iv hiv
      refine ⟨List.mem_cons_of_mem _ h1, List.mem_cons_of_mem _ h2, h3, ?_⟩
      intro x hx hxx
      rcases List.mem_cons.mp hx with rfl | hx
      · exact absurd (hp.1 _ h1) (not_lt.mpr hxx.1.le)
      · exact h4 x hx hxx

/-- The groups are the classes of modes with equal velocity. -/
theorem velGroups_exact (e : ModeNum n) (he : 0 < e.velEps) {k : ℕ} (hk : 0 < k) {vel : Fin k → ℝ} (hm : Monotone vel) (hs : ∀ i j, |vel i - vel j| ≤ e.velEps → vel i = vel j) :
    (velGroups e vel).flatten.Nodup ∧ (∀ i, i ∈ (velGroups e vel).flatten) ∧ (∀ g ∈ velGroups e vel, g ≠ [] ∧ ∀ i ∈ g, ∀ j ∈ g, vel i = vel j) ∧
    ∀ g ∈ velGroups e vel, ∀ i ∈ g, ∀ j, vel j = vel i → j ∈ g := by
  classical
  set b := ((List.range (k - 1)).filter fun i => decide (|((List.finRange k).map vel).getD i 0 - ((List.finRange k).map vel).getD (i + 1) 0| > e.velEps)) with hb
  have hget : ∀ i (hi : i < k), ((List.finRange k).map vel).getD i 0 = vel ⟨i, hi⟩ := by
    intro i hi
    rw [List.getD_eq_getElem?_getD, List.getElem?_eq_getElem (by simpa using hi)]
    simp
  have hmem : ∀ i, i ∈ b ↔ ∃ h : i + 1 < k, vel ⟨i, by omega⟩ ≠ vel ⟨i + 1, h⟩ := by
    intro i
    rw [hb, List.mem_filter, List.mem_range, decide_eq_true_eq]
    constructor
    · rintro ⟨h1, h2⟩
      refine ⟨by omega, ?_⟩
      rw [hget i (by omega), hget (i + 1) (by omega)] at h2
      intro h3
      rw [h3, sub_self, abs_zero] at h2
      exact absurd h2 (not_lt.mpr he.le)
    · rintro ⟨h1, h2⟩
      refine ⟨by omega, ?_⟩
      rw [hget i (by omega), hget (i + 1) (by omega)]
      by_contra h3
      exact h2 (hs _ _ (not_lt.mp h3))
  set rest := b.map (· + 1) ++ [k] with hrest
  have hvg : velGroups e vel = ((0 :: rest).zip rest).map fun iv => ((List.finRange k).take iv.2).drop iv.1 := rfl
  have hbs : b.Pairwise (· < ·) := List.Pairwise.filter _ List.pairwise_lt_range
  have hbk : ∀ x ∈ b.map (· + 1), 0 < x ∧ x < k := by
    intro x hx
    obtain ⟨y, hy, rfl⟩ := List.mem_map.mp hx
    obtain ⟨h1, _⟩ := (hmem y).mp hy
    omega
  have hpw : (0 :: rest).Pairwise (· < ·) := by
    rw [List.pairwise_cons, hrest, List.pairwise_append]
    refine ⟨?_, ?_, List.pairwise_singleton _ _, ?_⟩
    · intro x hx
      rcases List.mem_append.mp hx with hx | hx
      · exact (hbk x hx).1
      · rw [List.mem_singleton.mp hx]
        exact hk
    · rw [List.pairwise_map]
      exact hbs.imp fun h => by omega
    · intro x hx y hy
      rw [List.mem_singleton.mp hy]
      exact (hbk x hx).2
  have hflat : (velGroups e vel).flatten = List.finRange k := by
    rw [hvg, slices_flatten _ 0 rest hpw]
    have : (0 :: rest).getLast (List.cons_ne_nil _ _) = k := by
      rw [List.getLast_cons (by rw [hrest]; simp)]
      simp [hrest]
    rw [this, List.drop_zero, List.take_of_length_le (by simp)]
  -- no change of the velocity inside of a group
  have hconst : ∀ iv ∈ (0 :: rest).zip rest, ∀ (x y : ℕ) (hx : x < k) (hy : y < k), iv.1 ≤ x → x ≤ y → y < iv.2 → vel ⟨x, hx⟩ = vel ⟨y, hy⟩ := by
    intro iv hiv x y hx hy h1 h2 h3
    obtain ⟨_, _, _, q4⟩ := zip_tail_mem 0 rest hpw iv hiv
    induction y, h2 using Nat.le_induction with
    | base => rfl
    | succ y hxy ih =>
      rw [ih (by omega) (by omega)]
      by_contra h4
      have : y + 1 ∈ 0 :: rest := by
        refine List.mem_cons_of_mem _ ?_
        rw [hrest, List.mem_append]
        exact .inl (List.mem_map.mpr ⟨y, (hmem y).mpr ⟨hy, h4⟩, rfl⟩)
      exact q4 _ this ⟨by omega, h3⟩
  -- the velocity changes between groups
  have hjump : ∀ x ∈ rest, ∀ (hx : x < k), ∀ y : Fin k, y.val < x → vel y < vel ⟨x, hx⟩ := by
    intro x hxr hx y hy
    rw [hrest, List.mem_append] at hxr
    rcases hxr with hxr | hxr
    · obtain ⟨z, hz, rfl⟩ := List.mem_map.mp hxr
      obtain ⟨_, h2⟩ := (hmem z).mp hz
      have h3 : vel ⟨z, by omega⟩ ≤ vel ⟨z + 1, hx⟩ := hm (by rw [Fin.le_def]; simp)
      have h4 : vel y ≤ vel ⟨z, by omega⟩ := hm (by rw [Fin.le_def]; simp; omega)
      exact lt_of_le_of_lt h4 (lt_of_le_of_ne h3 h2)
    · rw [List.mem_singleton.mp hxr] at hx
      omega
  rw [hflat]
  refine ⟨List.nodup_finRange k, List.mem_finRange, ?_, ?_⟩
  · intro g hg
    rw [hvg, List.mem_map] at hg
    obtain ⟨iv, hiv, rfl⟩ := hg
    obtain ⟨q1, q2, q3, q4⟩ := zip_tail_mem 0 rest hpw iv hiv
    constructor
    · have : iv.2 ≤ k := by
        rw [hrest, List.mem_append] at q2
        rcases q2 with q2 | q2
        · exact (hbk _ q2).2.le
        · exact (List.mem_singleton.mp q2).le
      exact List.ne_nil_of_mem (mem_slice.mpr ⟨le_refl _, q3⟩ : (⟨iv.1, by omega⟩ : Fin k) ∈ _)
    · intro i hi j hj
      rw [mem_slice] at hi hj
      rcases le_total i.val j.val with h3 | h3
      · exact hconst iv hiv _ _ i.2 j.2 hi.1 h3 hj.2
      · exact (hconst iv hiv _ _ j.2 i.2 hj.1 h3 hi.2).symm
  · intro g hg i hi j hij
    rw [hvg, List.mem_map] at hg
    obtain ⟨iv, hiv, rfl⟩ := hg
    obtain ⟨q1, q2, q3, q4⟩ := zip_tail_mem 0 rest hpw iv hiv
    rw [mem_slice] at hi ⊢
    constructor
    · by_contra h3
      rcases List.mem_cons.mp q1 with h4 | h4
      · omega
      · have h5 := hjump _ h4 (by omega) j (by omega)
        have h6 : vel ⟨iv.1, by omega⟩ ≤ vel i := hm (by rw [Fin.le_def]; exact hi.1)
        linarith
    · by_contra h3
      have h5 := hjump _ q2 (by omega) i hi.2
      have h6 : vel ⟨iv.2, by omega⟩ ≤ vel j := hm (by rw [Fin.le_def]; exact not_lt.mp h3)
      linarith

/-- The loop over the groups replaces the columns of each group. -/
theorem phsGroups_spec (e : ModeNum n) (ph : Matrix (Fin n) (Fin n) ℂ) {k : ℕ} (orig : Matrix (Fin n) (Fin k) ℂ) : ∀ (gs : List (List (Fin k)))
    (s s' : Matrix (Fin n) (Fin k) ℂ × (Fin k → ℕ)), gs.flatten.Nodup → phsGroups e ph orig gs s = .ok s' →
    (∀ g ∈ gs, phsSymmetrization e ph (orig.submatrix id g.get) = .ok (s'.1.submatrix id g.get, s'.2 ∘ g.get)) ∧
      ∀ i, i ∉ gs.flatten → s'.1.col i = s.1.col i ∧ s'.2 i = s.2 i
  | [], s, s', _, h => by
    cases h
    exact ⟨fun g hg => absurd hg List.not_mem_nil, fun _ _ => ⟨rfl, rfl⟩⟩
  | g :: gs, s, s', hn, h => by
    rw [List.flatten_cons, List.nodup_append] at hn
    obtain ⟨hn1, hn2, hn3⟩ := hn
    have hinj : Function.Injective g.get := List.nodup_iff_injective_get.mp hn1
    rw [phsGroups] at h
    split at h
    · cases h
    rename_i o ho
    obtain ⟨i1, i2⟩ := phsGroups_spec e ph orig gs _ s' hn2 h
    constructor
    · intro g' hg'
      rcases List.mem_cons.mp hg' with rfl | hg'
      · rw [ho]
        congr 1
        have : ∀ i, s'.1.col (g'.get i) = o.1.col i ∧ s'.2 (g'.get i) = o.2 i := by
          intro i
          obtain ⟨k1, k2⟩ := i2 (g'.get i) fun hi => hn3 _ (List.get_mem g' i) _ hi rfl
          rw [k1, k2]
          exact ⟨updCols_col_sel hinj _ _ i, upd_sel hinj _ _ i⟩
        refine Prod.ext ?_ ?_
        · ext x i
          exact (congrFun (this i).1 x).symm
        · ext i
          exact (this i).2.symm
      · exact i1 g' hg'
    · intro i hi
      rw [List.flatten_cons, List.mem_append] at hi
      push Not at hi
      obtain ⟨k1, k2⟩ := i2 i hi.2
      have hne : ∀ j, g.get j ≠ i := fun j hj => hi.1 (hj ▸ List.get_mem g j)
      rw [k1, k2]
      exact ⟨updCols_col_not _ _ hne, upd_not _ _ hne⟩

theorem phsGroups_ok (e : ModeNum n) (ph : Matrix (Fin n) (Fin n) ℂ) {k : ℕ} (orig : Matrix (Fin n) (Fin k) ℂ) : ∀ (gs : List (List (Fin k)))
    (s : Matrix (Fin n) (Fin k) ℂ × (Fin k → ℕ)), (∀ g ∈ gs, ∃ o, phsSymmetrization e ph (orig.submatrix id g.get) = .ok o) → ∃ s', phsGroups e ph orig gs s = .ok s'
  | [], s, _ => ⟨s, rfl⟩
  | g :: gs, s, h => by
    obtain ⟨o, ho⟩ := h g List.mem_cons_self
    rw [phsGroups, ho]
    exact phsGroups_ok e ph orig gs _ fun g' hg' => h g' (List.mem_cons_of_mem _ hg')

end Kwant.Leads
