import Mathlib.Data.List.Sort
import Mathlib.Data.Real.Archimedean
import Mathlib.Data.List.GetD
import Mathlib.Tactic.Ring
import Mathlib.Tactic.NormNum
import Mathlib.Algebra.Order.Floor.Ring
import Mathlib.Tactic.Linarith
import Mathlib.Tactic.FieldSimp

/-!
C178: the color range of `kwant.plotter.map`: `percentile_bound` (plotter.py l.202-227).  Exact arithmetic; `numpy.percentile` interpolates
linearly between the sorted data, its documented default.
-/

set_option linter.unusedSectionVars false

namespace Kwant.Percentile

/-- `numpy.percentile` of sorted data. -/
noncomputable def pct (s : List ℝ) (q : ℝ) : ℝ :=
  let h := ((s.length : ℝ) - 1) * q / 100
  let k := ⌊h⌋.toNat
  s.getD k 0 + (h - k) * (s.getD (k + 1) 0 - s.getD k 0)

/-- `percentile_bound` (l.202-227) -/
noncomputable def percentileBound (data : List ℝ) (vmin vmax : Option ℝ) (percentile stretch : ℝ) : ℝ × ℝ :=
  match vmin, vmax with
  | some a, some b => (a, b)
  | vmin, vmax =>
    let p := (100 - percentile) / 2
    let s := data.insertionSort (· ≤ ·)
    let mn := pct s 0
    let mx := pct s 100
    let boundMn := match vmin with | none => pct s p | some v => v
    let boundMx := match vmax with | none => pct s (100 - p) | some v => v
    let st := (boundMx - boundMn) * stretch
    let outMn := match vmin with | none => max (boundMn - st) mn | some v => v
    let outMx := match vmax with | none => min (boundMx + st) mx | some v => v
    (outMn, outMx)

/-! ## Lemmas -/

theorem sorted_get {s : List ℝ} (h : s.Pairwise (· ≤ ·)) {i j : ℕ} (hij : i ≤ j) (hj : j < s.length) : s.getD i 0 ≤ s.getD j 0 := by
  rw [List.getD_eq_getElem _ _ (by omega), List.getD_eq_getElem _ _ hj]
  rcases eq_or_lt_of_le hij with rfl | hlt
  · exact le_refl _
  · exact List.pairwise_iff_getElem.mp h i j (by omega) hj hlt

/-- Where the percentile lies between the data. -/
theorem pct_between {s : List ℝ} (h : s.Pairwise (· ≤ ·)) (hs : s ≠ []) {q : ℝ} (h0 : 0 ≤ q) (h1 : q ≤ 100) :
    s.getD ⌊((s.length : ℝ) - 1) * q / 100⌋.toNat 0 ≤ pct s q ∧ pct s q ≤ s.getD ⌈((s.length : ℝ) - 1) * q / 100⌉.toNat 0 ∧
      ⌈((s.length : ℝ) - 1) * q / 100⌉.toNat < s.length := by
  have hn : 1 ≤ s.length := List.length_pos_iff.mpr hs
  have hn' : (1 : ℝ) ≤ s.length := by exact_mod_cast hn
  set x := ((s.length : ℝ) - 1) * q / 100 with hx
  have x0 : 0 ≤ x := by
    apply div_nonneg _ (by norm_num)
    apply mul_nonneg (by linarith) h0
  have x1 : x ≤ s.length - 1 := by
    rw [hx, div_le_iff₀ (by norm_num)]
    nlinarith
  have f0 : 0 ≤ ⌊x⌋ := Int.floor_nonneg.mpr x0
  have hk : ((⌊x⌋.toNat : ℕ) : ℝ) = (⌊x⌋ : ℝ) := by
    rw [← Int.cast_natCast, Int.toNat_of_nonneg f0]
  have hfl := Int.floor_le x
  have hlt := Int.lt_floor_add_one x
  have hceil : ⌈x⌉ ≤ (s.length : ℤ) - 1 := by
    rw [Int.ceil_le]
    push_cast
    linarith
  have hc0 : 0 ≤ ⌈x⌉ := f0.trans (Int.floor_le_ceil x)
  refine ⟨?_, ?_, by omega⟩
  · unfold pct
    simp only [← hx]
    have : 0 ≤ (x - (⌊x⌋.toNat : ℝ)) * (s.getD (⌊x⌋.toNat + 1) 0 - s.getD ⌊x⌋.toNat 0) := by
      by_cases hxi : x = ⌊x⌋
      · rw [hk, ← hxi]
        simp
      · apply mul_nonneg
        · rw [hk]
          linarith
        · have hcf : ⌈x⌉ = ⌊x⌋ + 1 := by
            rw [Int.ceil_eq_iff]
            push_cast
            refine ⟨?_, hlt.le⟩
            have : (⌊x⌋ : ℝ) < x := lt_of_le_of_ne hfl (Ne.symm hxi)
            linarith
          have := sorted_get h (Nat.le_succ ⌊x⌋.toNat) (by omega)
          simp only [Nat.succ_eq_add_one] at this
          linarith
    linarith
  · unfold pct
    simp only [← hx]
    by_cases hxi : x = ⌊x⌋
    · have hcf : ⌈x⌉ = ⌊x⌋ := by
        have : ⌈((⌊x⌋ : ℤ) : ℝ)⌉ = ⌊x⌋ := Int.ceil_intCast _
        rw [← hxi] at this
        exact this
      rw [hcf, hk, ← hxi]
      simp
    · have hcf : ⌈x⌉ = ⌊x⌋ + 1 := by
        rw [Int.ceil_eq_iff]
        push_cast
        refine ⟨?_, hlt.le⟩
        have : (⌊x⌋ : ℝ) < x := lt_of_le_of_ne hfl (Ne.symm hxi)
        linarith
      have ht : ⌈x⌉.toNat = ⌊x⌋.toNat + 1 := by omega
      rw [ht]
      have := sorted_get h (Nat.le_succ ⌊x⌋.toNat) (by omega)
      simp only [Nat.succ_eq_add_one] at this
      have h3 : x - (⌊x⌋.toNat : ℝ) ≤ 1 := by
        rw [hk]
        linarith
      nlinarith

theorem pct_zero (s : List ℝ) : pct s 0 = s.getD 0 0 := by simp [pct]

theorem pct_hundred {s : List ℝ} (hs : s ≠ []) : pct s 100 = s.getD (s.length - 1) 0 := by
  have hn : 1 ≤ s.length := List.length_pos_iff.mpr hs
  have e : ((s.length : ℝ) - 1) * 100 / 100 = ((s.length - 1 : ℕ) : ℝ) := by
    rw [Nat.cast_sub hn]
    push_cast
    ring
  unfold pct
  simp only [e, Int.floor_natCast, Int.toNat_natCast, sub_self, zero_mul, add_zero]

theorem pct_mono {s : List ℝ} (h : s.Pairwise (· ≤ ·)) (hs : s ≠ []) {q q' : ℝ} (h0 : 0 ≤ q) (hq : q ≤ q') (h1 : q' ≤ 100) : pct s q ≤ pct s q' := by
  have hn : 1 ≤ s.length := List.length_pos_iff.mpr hs
  have hn' : (1 : ℝ) ≤ s.length := by exact_mod_cast hn
  obtain ⟨a1, a2, a3⟩ := pct_between h hs h0 (hq.trans h1)
  obtain ⟨b1, b2, b3⟩ := pct_between h hs (h0.trans hq) h1
  set x := ((s.length : ℝ) - 1) * q / 100 with hx
  set x' := ((s.length : ℝ) - 1) * q' / 100 with hx'
  have hxx : x ≤ x' := by
    rw [hx, hx']
    apply div_le_div_of_nonneg_right _ (by norm_num)
    apply mul_le_mul_of_nonneg_left hq (by linarith)
  have x0 : 0 ≤ x := by
    apply div_nonneg _ (by norm_num)
    apply mul_nonneg (by linarith) h0
  have hff := Int.floor_le_floor hxx
  by_cases hc : ⌈x⌉ ≤ ⌊x'⌋
  · have hfc := Int.floor_le_ceil x'
    have := sorted_get h (show ⌈x⌉.toNat ≤ ⌊x'⌋.toNat by omega) (by omega)
    linarith
  · have hcl := Int.ceil_le_floor_add_one x
    have hfe : ⌊x⌋ = ⌊x'⌋ := by omega
    unfold pct
    simp only [← hx, ← hx', hfe]
    have hce : ⌈x⌉ = ⌊x'⌋ + 1 := by omega
    have f0 : 0 ≤ ⌊x⌋ := Int.floor_nonneg.mpr x0
    have := sorted_get h (Nat.le_succ ⌊x'⌋.toNat) (by omega)
    simp only [Nat.succ_eq_add_one] at this
    nlinarith

theorem count_lt {s : List ℝ} (h : s.Pairwise (· ≤ ·)) {k : ℕ} (hk : k < s.length) {v : ℝ} (hv : v ≤ s.getD k 0) : s.countP (fun y => decide (y < v)) ≤ k := by
  conv_lhs => rw [← List.take_append_drop k s]
  rw [List.countP_append]
  have h1 : (s.take k).countP (fun y => decide (y < v)) ≤ k := by
    have := List.countP_le_length (l := s.take k) (p := fun y => decide (y < v))
    rw [List.length_take] at this
    omega
  have h2 : (s.drop k).countP (fun y => decide (y < v)) = 0 := by
    rw [List.countP_eq_zero]
    intro y hy
    simp only [decide_eq_true_eq, not_lt]
    obtain ⟨i, hi, rfl⟩ := List.getElem_of_mem hy
    rw [List.getElem_drop]
    rw [List.length_drop] at hi
    have := sorted_get h (show k ≤ k + i by omega) (by omega)
    rw [List.getD_eq_getElem _ _ (show k + i < s.length by omega)] at this
    linarith
  omega

theorem count_gt {s : List ℝ} (h : s.Pairwise (· ≤ ·)) {k : ℕ} (hk : k < s.length) {v : ℝ} (hv : s.getD k 0 ≤ v) :
    s.countP (fun y => decide (v < y)) ≤ s.length - 1 - k := by
  conv_lhs => rw [← List.take_append_drop (k + 1) s]
  rw [List.countP_append]
  have h1 : (s.drop (k + 1)).countP (fun y => decide (v < y)) ≤ s.length - 1 - k := by
    have := List.countP_le_length (l := s.drop (k + 1)) (p := fun y => decide (v < y))
    rw [List.length_drop] at this
    omega
  have h2 : (s.take (k + 1)).countP (fun y => decide (v < y)) = 0 := by
    rw [List.countP_eq_zero]
    intro y hy
    simp only [decide_eq_true_eq, not_lt]
    obtain ⟨i, hi, rfl⟩ := List.getElem_of_mem hy
    rw [List.getElem_take]
    rw [List.length_take] at hi
    have := sorted_get h (show i ≤ k by omega) hk
    rw [List.getD_eq_getElem _ _ (show i < s.length by omega)] at this
    linarith
  omega

/-! ## The property -/

/-- The number of data outside of a color range. -/
noncomputable def below (data : List ℝ) (v : ℝ) : ℕ := data.countP fun y => decide (y < v)
noncomputable def above (data : List ℝ) (v : ℝ) : ℕ := data.countP fun y => decide (v < y)

/-- C178 (partial): a bound that is given is kept; if none is given, the range lies within the data, and at most `⌈(n - 1) (100 - percentile) / 200⌉` of the `n` data lie
below it and as many above.  If this is not rounded, at least the given percentage of the data is within the range.  Missing: this holds for all
data. -/
theorem C178_partial {data : List ℝ} (hd : data ≠ []) {percentile stretch : ℝ} (hp0 : 0 ≤ percentile) (hp1 : percentile ≤ 100) (hs : 0 ≤ stretch) :
    (∀ a vmax, (percentileBound data (some a) vmax percentile stretch).1 = a) ∧
    (∀ vmin b, (percentileBound data vmin (some b) percentile stretch).2 = b) ∧
    ∃ lo hi, percentileBound data none none percentile stretch = (lo, hi) ∧ lo ≤ hi ∧ (∃ x ∈ data, x ≤ lo) ∧ (∃ x ∈ data, hi ≤ x) ∧
      (below data lo : ℤ) ≤ ⌈((data.length : ℝ) - 1) * ((100 - percentile) / 2) / 100⌉ ∧
      (above data hi : ℤ) ≤ ⌈((data.length : ℝ) - 1) * ((100 - percentile) / 2) / 100⌉ ∧
      ((∃ z : ℤ, ((data.length : ℝ) - 1) * ((100 - percentile) / 2) / 100 = z) →
        percentile / 100 * data.length ≤ (data.length : ℝ) - below data lo - above data hi) := by
  refine ⟨?_, ?_, ?_⟩
  · intro a vmax
    cases vmax <;> rfl
  · intro vmin b
    cases vmin <;> rfl
  · set s := data.insertionSort (· ≤ ·) with hsdef
    have hperm : s.Perm data := List.perm_insertionSort _ _
    have hsort : s.Pairwise (· ≤ ·) := List.pairwise_insertionSort _ _
    have hlen : s.length = data.length := hperm.length_eq
    have hne : s ≠ [] := by
      intro e
      rw [e] at hperm
      exact hd (List.nil_perm.mp hperm).symm.symm
    have hn : 1 ≤ s.length := List.length_pos_iff.mpr hne
    have hn' : (1 : ℝ) ≤ s.length := by exact_mod_cast hn
    set p := (100 - percentile) / 2 with hp
    have p0 : 0 ≤ p := by rw [hp]; linarith
    have p1 : p ≤ 50 := by rw [hp]; linarith
    have hmn : pct s 0 ≤ pct s p := pct_mono hsort hne (le_refl 0) p0 (by linarith)
    have hmid : pct s p ≤ pct s (100 - p) := pct_mono hsort hne p0 (by linarith) (by linarith)
    have hmx : pct s (100 - p) ≤ pct s 100 := pct_mono hsort hne (by linarith) (by linarith) (le_refl _)
    have hst : 0 ≤ (pct s (100 - p) - pct s p) * stretch := mul_nonneg (by linarith) hs
    refine ⟨max (pct s p - (pct s (100 - p) - pct s p) * stretch) (pct s 0), min (pct s (100 - p) + (pct s (100 - p) - pct s p) * stretch) (pct s 100), rfl, ?_, ?_, ?_, ?_⟩
    · have h1 : max (pct s p - (pct s (100 - p) - pct s p) * stretch) (pct s 0) ≤ pct s p := max_le (by linarith) hmn
      have h2 : pct s (100 - p) ≤ min (pct s (100 - p) + (pct s (100 - p) - pct s p) * stretch) (pct s 100) := le_min (by linarith) hmx
      linarith
    · refine ⟨s.getD 0 0, ?_, ?_⟩
      · rw [List.getD_eq_getElem _ _ (by omega)]
        exact hperm.mem_iff.mp (List.getElem_mem _)
      · rw [← pct_zero]
        exact le_max_right _ _
    · refine ⟨s.getD (s.length - 1) 0, ?_, ?_⟩
      · rw [List.getD_eq_getElem _ _ (by omega)]
        exact hperm.mem_iff.mp (List.getElem_mem _)
      · rw [← pct_hundred hne]
        exact min_le_right _ _
    · set lo := max (pct s p - (pct s (100 - p) - pct s p) * stretch) (pct s 0) with hlo
      set hi := min (pct s (100 - p) + (pct s (100 - p) - pct s p) * stretch) (pct s 100) with hhi
      have h1 : lo ≤ pct s p := max_le (by linarith) hmn
      have h2 : pct s (100 - p) ≤ hi := le_min (by linarith) hmx
      obtain ⟨a1, a2, a3⟩ := pct_between hsort hne p0 (by linarith)
      obtain ⟨b1, b2, b3⟩ := pct_between hsort hne (show 0 ≤ 100 - p by linarith) (by linarith)
      set x := ((s.length : ℝ) - 1) * p / 100 with hx
      have hx' : ((s.length : ℝ) - 1) * (100 - p) / 100 = ((s.length - 1 : ℕ) : ℝ) - x := by
        rw [hx, Nat.cast_sub hn]
        push_cast
        ring
      have x0 : 0 ≤ x := by
        apply div_nonneg _ (by norm_num)
        apply mul_nonneg (by linarith) p0
      have c0 : 0 ≤ ⌈x⌉ := Int.ceil_nonneg x0
      have hfl : ⌊((s.length : ℝ) - 1) * (100 - p) / 100⌋ = (s.length - 1 : ℕ) - ⌈x⌉ := by
        rw [hx', sub_eq_add_neg, Int.floor_natCast_add, Int.floor_neg]
        ring
      rw [hfl] at b1
      have hcl : (below data lo : ℤ) ≤ ⌈x⌉ := by
        have e : below data lo = s.countP fun y => decide (y < lo) := (hperm.countP_eq _).symm
        have := count_lt hsort a3 (h1.trans a2)
        rw [e]
        omega
      have hch : (above data hi : ℤ) ≤ ⌈x⌉ := by
        have e : above data hi = s.countP fun y => decide (hi < y) := (hperm.countP_eq _).symm
        have := count_gt hsort (k := (((s.length - 1 : ℕ) : ℤ) - ⌈x⌉).toNat) (by omega) (b1.trans h2)
        rw [e]
        omega
      rw [← hlen]
      refine ⟨hcl, hch, ?_⟩
      rintro ⟨z, hz⟩
      rw [← hx] at hz
      rw [hz, Int.ceil_intCast] at hcl hch
      have hcl' : (below data lo : ℝ) ≤ x := by rw [hz]; exact_mod_cast hcl
      have hch' : (above data hi : ℝ) ≤ x := by rw [hz]; exact_mod_cast hch
      have hxx : 2 * x = ((s.length : ℝ) - 1) * (100 - percentile) / 100 := by
        rw [hx, hp]
        ring
      have : ((s.length : ℝ) - 1) * (100 - percentile) / 100 ≤ (s.length : ℝ) * (100 - percentile) / 100 := by
        apply div_le_div_of_nonneg_right _ (by norm_num)
        apply mul_le_mul_of_nonneg_right _ (by linarith)
        linarith
      have h3 : (s.length : ℝ) * (100 - percentile) / 100 = s.length - percentile / 100 * s.length := by ring
      linarith

/-- C178 fails for few data: of ten values with an outlier on each side two are outside of the default range for 96 percent. -/
theorem C178_counterexample : ∃ data : List ℝ, data.length = 10 ∧ ∃ lo hi, percentileBound data none none 96 0.1 = (lo, hi) ∧
    below data lo = 1 ∧ above data hi = 1 := by
  refine ⟨[-100, 0, 0, 0, 0, 0, 0, 0, 0, 100], rfl, _, _, rfl, ?_⟩
  have hs : ([-100, 0, 0, 0, 0, 0, 0, 0, 0, 100] : List ℝ).insertionSort (· ≤ ·) = [-100, 0, 0, 0, 0, 0, 0, 0, 0, 100] := by
    apply List.Pairwise.insertionSort_eq
    norm_num
  have f1 : ⌊(9 / 50 : ℝ)⌋ = 0 := by
    rw [Int.floor_eq_iff]
    norm_num
  have f2 : ⌊(441 / 50 : ℝ)⌋ = 8 := by
    rw [Int.floor_eq_iff]
    norm_num
  have p0 : pct [-100, 0, 0, 0, 0, 0, 0, 0, 0, 100] 0 = -100 := by rw [pct_zero]; rfl
  have p4 : pct [-100, 0, 0, 0, 0, 0, 0, 0, 0, 100] 100 = 100 := by rw [pct_hundred (by simp)]; rfl
  have p1 : pct [-100, 0, 0, 0, 0, 0, 0, 0, 0, 100] ((100 - 96) / 2) = -82 := by
    have e : ((([-100, 0, 0, 0, 0, 0, 0, 0, 0, 100] : List ℝ).length : ℝ) - 1) * ((100 - 96) / 2) / 100 = 9 / 50 := by norm_num
    unfold pct
    simp only [e, f1]
    norm_num
  have p2 : pct [-100, 0, 0, 0, 0, 0, 0, 0, 0, 100] (100 - (100 - 96) / 2) = 82 := by
    have e : ((([-100, 0, 0, 0, 0, 0, 0, 0, 0, 100] : List ℝ).length : ℝ) - 1) * (100 - (100 - 96) / 2) / 100 = 441 / 50 := by norm_num
    unfold pct
    have t8 : (8 : ℤ).toNat = 8 := rfl
    simp only [e, f2, t8]
    norm_num
  simp only [hs, p0, p1, p2, p4]
  constructor
  · rw [show max (-82 - (82 - -82) * (0.1 : ℝ)) (-100) = -98.4 by norm_num]
    norm_num [below]
  · rw [show min (82 + (82 - -82) * (0.1 : ℝ)) 100 = 98.4 by norm_num]
    norm_num [above]

end Kwant.Percentile
