import Verif.Leads.Proper
import Mathlib.Data.List.Range
import Mathlib.Data.List.Nodup
import Mathlib.Data.List.Pairwise

/-!
The loop over clusters of eigenvalues in `make_proper_modes` (kwant/physics/leads.py l.642-659): which modes it visits.
-/

set_option linter.unusedSectionVars false

namespace Kwant.Leads
open Matrix Complex

variable {n r : ℕ}

/-! ### Lists of intervals -/

theorem range'_append_consecutive {a b c : ℕ} (h1 : a ≤ b) (h2 : b ≤ c) : List.range' a (b - a) ++ List.range' b (c - b) = List.range' a (c - a) := by
  have : List.range' a (b - a) ++ List.range' (a + 1 * (b - a)) (c - b) = List.range' a ((b - a) + (c - b)) := List.range'_append
  rw [show a + 1 * (b - a) = b by omega, show b - a + (c - b) = c - a by omega] at this
  exact this

/-- The intervals between consecutive elements of a sorted list, up to the element `B`. -/
theorem intervals_spec (B : ℕ) : ∀ (b0 : ℕ) (bs : List ℕ), (b0 :: bs).Pairwise (· < ·) → B ∈ b0 :: bs →
    (((b0 :: bs).zip bs).takeWhile fun iv => decide (iv.2 ≤ B)).flatMap (fun iv => List.range' iv.1 (iv.2 - iv.1)) = List.range' b0 (B - b0) ∧
    (∀ iv ∈ ((b0 :: bs).zip bs).takeWhile fun iv => decide (iv.2 ≤ B), b0 ≤ iv.1 ∧ iv.1 < iv.2 ∧ iv.2 ≤ B ∧ iv.1 ∈ b0 :: bs ∧ iv.2 ∈ b0 :: bs ∧
      ∀ x ∈ b0 :: bs, ¬(iv.1 < x ∧ x < iv.2))
  | b0, [], _, hB => by
    rw [List.mem_singleton] at hB
    subst hB
    simp
  | b0, b1 :: bs, hs, hB => by
    have hs' := List.pairwise_cons.mp hs
    have h01 : b0 < b1 := hs'.1 b1 List.mem_cons_self
    rw [List.zip_cons_cons]
    by_cases hb : b1 ≤ B
    · rw [List.takeWhile_cons_of_pos (by simpa using hb)]
      have hB' : B ∈ b1 :: bs := by
        rcases List.mem_cons.mp hB with h | h
        · omega
        · exact h
      obtain ⟨i1, i2⟩ := intervals_spec B b1 bs hs'.2 hB'
      constructor
      · rw [List.flatMap_cons, i1]
        exact range'_append_consecutive h01.le hb
      · intro iv hiv
        rcases List.mem_cons.mp hiv with h | h
        · subst h
          refine ⟨le_refl _, h01, hb, List.mem_cons_self, List.mem_cons_of_mem _ List.mem_cons_self, ?_⟩
          rintro x hx ⟨h2, h3⟩
          rcases List.mem_cons.mp hx with h | h
          · exact absurd h2 (by rw [h]; exact lt_irrefl _)
          rcases List.mem_cons.mp h with h | h
          · exact absurd h3 (by rw [h]; exact lt_irrefl _)
          · exact absurd ((List.pairwise_cons.mp hs'.2).1 x h) (by simpa using h3.le)
        · obtain ⟨h1, h2, h3, h4, h5, h6⟩ := i2 iv h
          refine ⟨h01.le.trans h1, h2, h3, List.mem_cons_of_mem _ h4, List.mem_cons_of_mem _ h5, ?_⟩
          intro x hx
          rcases List.mem_cons.mp hx with h | h
          · rintro ⟨h7, _⟩
            omega
          · exact h6 x h
    · have hB' : B = b0 := by
        rcases List.mem_cons.mp hB with h | h
        · exact h
        rcases List.mem_cons.mp h with h | h
        · omega
        · have := (List.pairwise_cons.mp hs'.2).1 B h
          omega
      rw [List.takeWhile_cons_of_neg (by simpa using hb)]
      subst hB'
      simp

theorem slice_range {M a b : ℕ} (hb : b ≤ M) : ((List.range M).take b).drop a = List.range' a (b - a) := by
  rw [List.take_range, Nat.min_eq_left hb, List.range_eq_range', List.drop_range']
  simp

/-! ### The order of the eigenvalues -/

section
variable {N : ℕ} [NeZero N] (e : ModeNum n) (lam : Fin N → ℂ)

/-- The mode at position `i` of the sorted eigenvalues, continued periodically. -/
noncomputable def pos (i : ℕ) : Fin N := e.argsort (fun i => (lam i).arg) (Fin.ofNat N i)

theorem sortOrder_eq : sortOrder e lam = (List.range (2 * N)).map (pos e lam) := by
  have h1 : (List.finRange N).map (e.argsort fun i => (lam i).arg) = (List.range N).map (pos e lam) := by
    apply List.ext_getElem (by simp)
    intro i h1 h2
    have hi : i < N := by simpa using h1
    simp only [List.getElem_map, List.getElem_finRange, List.getElem_range, pos]
    congr 1
    ext
    simp [Nat.mod_eq_of_lt hi]
  rw [sortOrder, h1, two_mul, List.range_add, List.map_append, List.map_map]
  congr 1
  apply List.map_congr_left
  intro i _
  simp only [Function.comp_apply, pos]
  congr 1
  ext
  simp

theorem pos_add (i : ℕ) : pos e lam (N + i) = pos e lam i := by
  rw [pos, pos]
  congr 1
  ext
  simp

theorem pos_inj {i j : ℕ} (h : pos e lam i = pos e lam j) : i % N = j % N := by
  have := (e.argsort fun i => (lam i).arg).injective h
  simpa [Fin.ext_iff] using this

theorem pos_surj (j : Fin N) : ∃ i < N, pos e lam i = j := by
  refine ⟨((e.argsort fun i => (lam i).arg).symm j).val, Fin.isLt _, ?_⟩
  rw [pos]
  simp

/-- There is a jump between the eigenvalues at the positions `i` and `i + 1`. -/
def Jump (i : ℕ) : Prop := e.eps < ‖lam (pos e lam (i + 1)) - lam (pos e lam i)‖

open Classical in
noncomputable def rawB : List ℕ := ((List.range (2 * N - 1)).filter fun i => decide (Jump e lam i)).map (· + 1)

theorem boundaries_eq : boundaries e lam = if rawB e lam = [] then [0, N] else rawB e lam := by
  have hN : N ≠ 0 := NeZero.ne N
  have hraw : rawB e lam = ((List.range (2 * N - 1)).filter fun i =>
      decide (‖((sortOrder e lam).map lam).getD (i + 1) 0 - ((sortOrder e lam).map lam).getD i 0‖ > e.eps)).map (· + 1) := by
    rw [rawB]
    congr 1
    apply List.filter_congr
    intro i hi
    rw [List.mem_range] at hi
    have h1 : ∀ i < 2 * N, ((sortOrder e lam).map lam).getD i 0 = lam (pos e lam i) := by
      intro i hi
      rw [sortOrder_eq, List.getD_eq_getElem?_getD]
      simp [hi]
    rw [h1 i (by omega), h1 (i + 1) (by omega)]
    exact decide_eq_decide.mpr Iff.rfl
  rw [boundaries, hraw]
  simp only [ne_eq, hN, not_false_eq_true, and_true]

theorem mem_rawB {x : ℕ} : x ∈ rawB e lam ↔ 0 < x ∧ x < 2 * N ∧ Jump e lam (x - 1) := by
  simp only [rawB, List.mem_map, List.mem_filter, List.mem_range, decide_eq_true_eq]
  constructor
  · rintro ⟨i, ⟨h1, h2⟩, rfl⟩
    exact ⟨by omega, by omega, by simpa using h2⟩
  · rintro ⟨h1, h2, h3⟩
    exact ⟨x - 1, ⟨by omega, h3⟩, by omega⟩

theorem rawB_sorted : (rawB e lam).Pairwise (· < ·) := by
  rw [rawB, List.pairwise_map]
  refine List.Pairwise.imp (R := (· < ·)) (by intro a b h; omega) ?_
  exact List.Pairwise.filter _ List.pairwise_lt_range

theorem jump_add (i : ℕ) : Jump e lam (N + i) ↔ Jump e lam i := by
  rw [Jump, Jump, add_assoc, pos_add, pos_add]

/-- The single boundary that makes the loop do nothing. -/
theorem rawB_eq_or : rawB e lam = [] ∨ rawB e lam = [N] ∨ ∃ b0 bs, rawB e lam = b0 :: bs ∧ 0 < b0 ∧ b0 < N ∧ b0 + N ∈ rawB e lam := by
  rcases hb : rawB e lam with _ | ⟨b0, bs⟩
  · exact .inl rfl
  · right
    have hm : b0 ∈ rawB e lam := by rw [hb]; exact List.mem_cons_self
    obtain ⟨h1, h2, h3⟩ := (mem_rawB e lam).mp hm
    have hmin : ∀ x ∈ rawB e lam, b0 ≤ x := by
      intro x hx
      have hs := rawB_sorted e lam
      rw [hb] at hx hs
      rcases List.mem_cons.mp hx with h | h
      · exact h.ge
      · exact ((List.pairwise_cons.mp hs).1 x h).le
    by_cases hN : b0 < N
    · right
      refine ⟨b0, bs, rfl, h1, hN, ?_⟩
      rw [← hb]
      rw [mem_rawB]
      refine ⟨by omega, by omega, ?_⟩
      rw [show b0 + N - 1 = N + (b0 - 1) by omega, jump_add]
      exact h3
    · left
      have key : ∀ x ∈ rawB e lam, x = N := by
        intro x hx
        have hge := hmin x hx
        obtain ⟨g1, g2, g3⟩ := (mem_rawB e lam).mp hx
        by_contra hne
        have : x - N ∈ rawB e lam := by
          rw [mem_rawB]
          refine ⟨by omega, by omega, ?_⟩
          rw [← jump_add, show N + (x - N - 1) = x - 1 by omega]
          exact g3
        have := hmin _ this
        omega
      have hs := rawB_sorted e lam
      have hb0 := key b0 hm
      rcases bs with _ | ⟨b1, bs⟩
      · rw [hb0]
      · exfalso
        have hb1 := key b1 (by rw [hb]; simp)
        rw [hb] at hs
        have := (List.pairwise_cons.mp hs).1 b1 List.mem_cons_self
        omega

/-- The clusters, by positions. -/
theorem clusters_nil (h : rawB e lam = [N]) : clusters e lam = [] := by
  rw [clusters, boundaries_eq, h]
  simp [intervals]

theorem clusters_struct (h : rawB e lam ≠ [N]) : ∃ b0 < N, (b0 = 0 → rawB e lam = []) ∧ (0 < b0 → b0 ∈ rawB e lam) ∧ ∃ ivs : List (ℕ × ℕ),
    clusters e lam = ivs.map (fun iv => (List.range' iv.1 (iv.2 - iv.1)).map (pos e lam)) ∧
    ivs.flatMap (fun iv => List.range' iv.1 (iv.2 - iv.1)) = List.range' b0 N ∧
    ∀ iv ∈ ivs, b0 ≤ iv.1 ∧ iv.1 < iv.2 ∧ iv.2 ≤ b0 + N ∧ (rawB e lam ≠ [] → iv.2 ∈ rawB e lam) ∧ ∀ x ∈ rawB e lam, ¬(iv.1 < x ∧ x < iv.2) := by
  have hN : 0 < N := NeZero.pos N
  have hcl : ∀ bs : List ℕ, (∀ iv ∈ intervals N bs, iv.2 ≤ 2 * N) →
      (intervals N bs).map (fun iv => ((sortOrder e lam).take iv.2).drop iv.1) =
      (intervals N bs).map (fun iv => (List.range' iv.1 (iv.2 - iv.1)).map (pos e lam)) := by
    intro bs hbs
    apply List.map_congr_left
    intro iv hiv
    rw [sortOrder_eq, ← List.map_take, ← List.map_drop, slice_range (hbs iv hiv)]
  rcases rawB_eq_or e lam with h0 | h1 | ⟨b0, bs, hb, h1, h2, h3⟩
  · refine ⟨0, hN, fun _ => h0, by omega, [(0, N)], ?_, ?_, ?_⟩
    · have hiv : intervals N [0, N] = [(0, N)] := by simp [intervals]
      rw [clusters, boundaries_eq, if_pos h0, hcl _ (by rw [hiv]; simp; omega), hiv]
    · simp
    · intro iv hiv
      rw [List.mem_singleton] at hiv
      subst hiv
      refine ⟨le_refl _, hN, by omega, fun hc => absurd h0 hc, ?_⟩
      rw [h0]
      simp
  · exact absurd h1 h
  · have hne : rawB e lam ≠ [] := by rw [hb]; simp
    obtain ⟨g1, g2⟩ := intervals_spec (b0 + N) b0 bs (hb ▸ rawB_sorted e lam) (hb ▸ h3)
    have hiv : intervals N (rawB e lam) = ((b0 :: bs).zip bs).takeWhile fun iv => decide (iv.2 ≤ b0 + N) := by
      rw [intervals, hb]
      rfl
    refine ⟨b0, h2, by omega, fun _ => by rw [hb]; exact List.mem_cons_self, intervals N (rawB e lam), ?_, ?_, ?_⟩
    · rw [clusters, boundaries_eq, if_neg hne]
      apply hcl
      intro iv hm
      rw [hiv] at hm
      have := (g2 iv hm).2.2.1
      omega
    · rw [hiv, g1]
      congr 1
      omega
    · intro iv hm
      rw [hiv] at hm
      obtain ⟨q1, q2, q3, q4, q5, q6⟩ := g2 iv hm
      exact ⟨q1, q2, q3, fun _ => by rw [hb]; exact q5, by rw [hb]; exact q6⟩

/-- Every mode is visited exactly once, except in one case, in which the loop does nothing at all. -/
theorem clusters_perm (h : rawB e lam ≠ [N]) : (clusters e lam).flatten.Nodup ∧ ∀ i, i ∈ (clusters e lam).flatten := by
  obtain ⟨b0, hb0, _, _, ivs, h1, h2, _⟩ := clusters_struct e lam h
  have hfl : (clusters e lam).flatten = (List.range' b0 N).map (pos e lam) := by
    rw [h1, ← h2, List.map_flatMap, List.flatMap_def]
  rw [hfl]
  have hmod : ∀ x y : ℕ, b0 ≤ x → x < b0 + N → b0 ≤ y → y < b0 + N → x % N = y % N → x = y := by
    intro x y hx1 hx2 hy1 hy2 hxy
    have e1 := Nat.div_add_mod x N
    have e2 := Nat.div_add_mod y N
    have : x / N = y / N ∨ x / N < y / N ∨ y / N < x / N := by omega
    rcases this with h3 | h3 | h3
    · rw [h3] at e1; omega
    · have : N * (x / N + 1) ≤ N * (y / N) := Nat.mul_le_mul_left _ h3
      rw [Nat.mul_add, Nat.mul_one] at this
      omega
    · have : N * (y / N + 1) ≤ N * (x / N) := Nat.mul_le_mul_left _ h3
      rw [Nat.mul_add, Nat.mul_one] at this
      omega
  constructor
  · refine List.Nodup.map_on ?_ List.nodup_range'
    intro x hx y hy hxy
    rw [List.mem_range'_1] at hx hy
    exact hmod x y hx.1 hx.2 hy.1 hy.2 (pos_inj e lam hxy)
  · intro i
    obtain ⟨j, hj, rfl⟩ := pos_surj e lam i
    rw [List.mem_map]
    by_cases hjb : b0 ≤ j
    · exact ⟨j, List.mem_range'_1.mpr ⟨hjb, by omega⟩, rfl⟩
    · exact ⟨N + j, List.mem_range'_1.mpr ⟨by omega, by omega⟩, pos_add e lam j⟩

/-! ### Exact clusters -/

/-- Eigenvalues that are closer than the tolerance are equal. -/
def Separated : Prop := ∀ i j, ‖lam i - lam j‖ ≤ e.eps → lam i = lam j

variable {e lam}

theorem eq_of_not_jump (hs : Separated e lam) {a b : ℕ} (hab : a ≤ b) (h : ∀ x, a ≤ x → x < b → ¬Jump e lam x) :
    lam (pos e lam b) = lam (pos e lam a) := by
  induction b, hab using Nat.le_induction with
  | base => rfl
  | succ b hab ih =>
    rw [← ih fun x h1 h2 => h x h1 (by omega)]
    exact hs _ _ (not_lt.mp (h b hab (by omega)))

theorem rawB_ne (he : 0 < e.eps) (hs : Separated e lam) : rawB e lam ≠ [N] := by
  intro h
  have hN : 0 < N := NeZero.pos N
  have hm : N ∈ rawB e lam := by rw [h]; simp
  obtain ⟨_, _, hj⟩ := (mem_rawB e lam).mp hm
  have : lam (pos e lam (N - 1)) = lam (pos e lam 0) := by
    refine eq_of_not_jump hs (Nat.zero_le _) ?_
    intro x _ hx hjx
    have : x + 1 ∈ rawB e lam := (mem_rawB e lam).mpr ⟨by omega, by omega, by simpa using hjx⟩
    rw [h, List.mem_singleton] at this
    omega
  rw [Jump, show N - 1 + 1 = N + 0 by omega, pos_add, this, sub_self, norm_zero] at hj
  exact absurd hj (not_lt.mpr he.le)

/-- Equal eigenvalues follow each other. -/
theorem no_jump_between (he : e.Ok) (hu : ∀ i, ‖lam i‖ = 1) {p q : ℕ} (hq : q < N) (h : lam (pos e lam p) = lam (pos e lam q)) {x : ℕ}
    (h1 : p ≤ x) (h2 : x < q) : ¬Jump e lam x := by
  have hmono := he.argsort (fun i => (lam i).arg)
  have harg : ∀ {a b : ℕ}, a ≤ b → b < N → (lam (pos e lam a)).arg ≤ (lam (pos e lam b)).arg := by
    intro a b hab hb
    refine hmono (a := Fin.ofNat N a) (b := Fin.ofNat N b) ?_
    rw [Fin.le_def]
    simp only [Fin.val_ofNat, Nat.mod_eq_of_lt hb, Nat.mod_eq_of_lt (lt_of_le_of_lt hab hb)]
    exact hab
  have heq : ∀ x, p ≤ x → x ≤ q → lam (pos e lam x) = lam (pos e lam p) := by
    intro x h1 h2
    have g1 := harg h1 (by omega)
    have g2 := harg h2 hq
    rw [← h] at g2
    have g3 : (lam (pos e lam x)).arg = (lam (pos e lam p)).arg := le_antisymm g2 g1
    exact Complex.ext_norm_arg (by rw [hu, hu]) g3
  rw [Jump, heq (x + 1) (by omega) (by omega), heq x h1 h2.le, sub_self, norm_zero]
  exact not_lt.mpr he.eps.le

/-- The clusters are the classes of equal eigenvalues. -/
theorem clusters_exact (he : e.Ok) (hs : Separated e lam) (hu : ∀ i, ‖lam i‖ = 1) :
    (∀ c ∈ clusters e lam, ∀ i ∈ c, ∀ j ∈ c, lam i = lam j) ∧ ∀ i j, lam i = lam j → ∃ c ∈ clusters e lam, i ∈ c ∧ j ∈ c := by
  obtain ⟨b0, hb0, hz, hp, ivs, h1, h2, h3⟩ := clusters_struct e lam (rawB_ne he.eps hs)
  have hnj : ∀ x, 0 < x → x < 2 * N → x ∉ rawB e lam → ¬Jump e lam (x - 1) := fun x g1 g2 g3 g4 => g3 ((mem_rawB e lam).mpr ⟨g1, g2, g4⟩)
  constructor
  · intro c hc i hi j hj
    rw [h1, List.mem_map] at hc
    obtain ⟨iv, hiv, rfl⟩ := hc
    obtain ⟨q1, q2, q3, q4, q5⟩ := h3 iv hiv
    have key : ∀ i ∈ (List.range' iv.1 (iv.2 - iv.1)).map (pos e lam), lam i = lam (pos e lam iv.1) := by
      intro i hi
      obtain ⟨x, hx, rfl⟩ := List.mem_map.mp hi
      rw [List.mem_range'_1] at hx
      refine eq_of_not_jump hs hx.1 ?_
      intro y g1 g2
      have := hnj (y + 1) (by omega) (by omega) fun hm => q5 _ hm ⟨by omega, by omega⟩
      simpa using this
    rw [key i hi, key j hj]
  · have main : ∀ p q, p ≤ q → q < N → lam (pos e lam p) = lam (pos e lam q) → ∃ c ∈ clusters e lam, pos e lam p ∈ c ∧ pos e lam q ∈ c := by
      intro p q hpq hq heq
      -- the two positions in the range that is visited
      have hside : b0 ≤ p ∨ q < b0 := by
        by_contra hc
        push Not at hc
        have hb : b0 ∈ rawB e lam := hp (by omega)
        obtain ⟨_, _, hj⟩ := (mem_rawB e lam).mp hb
        exact no_jump_between he hu hq heq (x := b0 - 1) (by omega) (by omega) hj
      obtain ⟨P, Q, hP, hQ, hPQ, hPb, hQb, hno⟩ : ∃ P Q, pos e lam P = pos e lam p ∧ pos e lam Q = pos e lam q ∧ P ≤ Q ∧ b0 ≤ P ∧ Q < b0 + N ∧
          ∀ x, P ≤ x → x < Q → ¬Jump e lam x := by
        rcases hside with h | h
        · exact ⟨p, q, rfl, rfl, hpq, h, by omega, fun x g1 g2 => no_jump_between he hu hq heq g1 g2⟩
        · refine ⟨N + p, N + q, pos_add e lam p, pos_add e lam q, by omega, by omega, by omega, fun x g1 g2 => ?_⟩
          have := no_jump_between he hu hq heq (x := x - N) (by omega) (by omega)
          rw [← jump_add, show N + (x - N) = x by omega] at this
          exact this
      have hm : P ∈ ivs.flatMap fun iv => List.range' iv.1 (iv.2 - iv.1) := by
        rw [h2, List.mem_range'_1]
        omega
      obtain ⟨iv, hiv, hPi⟩ := List.mem_flatMap.mp hm
      rw [List.mem_range'_1] at hPi
      obtain ⟨q1, q2, q3, q4, q5⟩ := h3 iv hiv
      have hQi : Q < iv.2 := by
        by_contra hc
        push Not at hc
        by_cases hr : rawB e lam = []
        · have hb00 : b0 = 0 := by
            by_contra hb
            have := hp (by omega)
            rw [hr] at this
            simp at this
          have hlast : Q < N := by omega
          -- the only interval is everything
          have : iv.2 = N := by
            by_contra hne
            have hlt : iv.2 < b0 + N := by omega
            have hm2 : iv.2 ∈ ivs.flatMap fun iv => List.range' iv.1 (iv.2 - iv.1) := by
              rw [h2, List.mem_range'_1]; omega
            have hcl : clusters e lam = [(List.range' 0 N).map (pos e lam)] := by
              rw [clusters, boundaries_eq, if_pos hr]
              have hI : intervals N [0, N] = [(0, N)] := by simp [intervals]
              rw [hI, List.map_singleton, sortOrder_eq, ← List.map_take, ← List.map_drop, slice_range (by omega)]
              simp
            have hlen : ivs.length = 1 := by
              have := congrArg List.length h1
              rw [hcl] at this
              simpa using this.symm
            obtain ⟨w, hw⟩ := List.length_eq_one_iff.mp hlen
            rw [hw] at hiv hm2
            rw [List.mem_singleton] at hiv
            rw [← hiv] at hm2
            simp only [List.flatMap_cons, List.flatMap_nil, List.append_nil, List.mem_range'_1] at hm2
            omega
          omega
        · have hb := q4 hr
          obtain ⟨_, _, hj⟩ := (mem_rawB e lam).mp hb
          exact hno (iv.2 - 1) (by omega) (by omega) hj
      refine ⟨_, by rw [h1]; exact List.mem_map_of_mem hiv, ?_, ?_⟩
      · rw [List.mem_map]
        exact ⟨P, List.mem_range'_1.mpr ⟨by omega, by omega⟩, hP⟩
      · rw [List.mem_map]
        exact ⟨Q, List.mem_range'_1.mpr ⟨by omega, by omega⟩, hQ⟩
    intro i j hij
    obtain ⟨p, hp1, rfl⟩ := pos_surj e lam i
    obtain ⟨q, hq1, rfl⟩ := pos_surj e lam j
    rcases le_total p q with h | h
    · exact main p q h hq1 hij
    · obtain ⟨c, hc, g1, g2⟩ := main q p h hp1 hij.symm
      exact ⟨c, hc, g2, g1⟩

end

end Kwant.Leads
