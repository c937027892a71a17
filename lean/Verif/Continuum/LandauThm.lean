import Verif.Continuum.LandauDict
import Verif.Continuum.LandauRaises
import Mathlib.Algebra.BigOperators.Finprod

/-! C138, C139: the matrix elements of the system that `discretize_landau` builds. -/

set_option linter.unusedSectionVars false

namespace Kwant.Continuum
open Matrix

variable {m : ℕ}

/-! ### Which hoppings are kept -/

theorem mem_outer {V : Type*} (d : List (LKey × V)) (k : List ℤ) : k ∈ outerKeys d ↔ k = [0] ∨ ∃ p ∈ d, p.1.1 = k := by
  unfold outerKeys
  rw [List.mem_dedup, List.mem_cons, List.mem_map]

theorem mem_kept (kpar : Axis → ℂ) (ax : Axis) (B : ℝ) (ham : Fin m → Fin m → List LTerm) (d) (hd : d.Perm (landauDict kpar ax B ham)) (p) :
    p ∈ landauKept d ↔ p ∈ d ∧ (p.1.1 = [0] ∨ FirstPos p.1.1) := by
  have hkeys : ∀ k : LKey, k ∈ d.map Prod.fst ↔ k ∈ (landauDict kpar ax B ham).map Prod.fst := fun k => (hd.map _).mem_iff
  have hw := wanted_spec (outerKeys d) 1 (List.nodup_dedup _) ?_ ((mem_outer d _).mpr (Or.inl rfl)) ?_ p.1.1
  · unfold landauKept
    rw [List.mem_filter, decide_eq_true_eq, hw]
    constructor
    · rintro ⟨h1, -, h2⟩; exact ⟨h1, h2⟩
    · rintro ⟨h1, h2⟩; exact ⟨h1, (mem_outer d _).mpr (Or.inr ⟨p, h1, rfl⟩), h2⟩
  · intro k hk
    rcases (mem_outer d k).mp hk with rfl | ⟨q, hq, rfl⟩
    · rfl
    · exact dict_key_len kpar ax B ham q.1 ((hkeys _).mp (List.mem_map_of_mem hq))
  · intro k hk
    rw [mem_outer]
    rcases (mem_outer d k).mp hk with rfl | ⟨q, hq, rfl⟩
    · left; rfl
    · right
      have := dict_key_neg kpar ax B ham q.1 ((hkeys _).mp (List.mem_map_of_mem hq))
      obtain ⟨r, hr, he⟩ := List.mem_map.mp ((hkeys _).mpr this)
      exact ⟨r, hr, by rw [he]⟩

theorem firstPos_single (z : ℤ) : FirstPos [z] ↔ 0 < z := by
  rw [← pos_iff 1 [z] rfl]
  change [(0 : ℤ)] < [z] ↔ 0 < z
  rw [List.cons_lt_cons_iff]
  simp

theorem sum_filter_ite {ι M : Type*} [AddCommMonoid M] (l : List ι) (P : ι → Bool) (f : ι → M) : ((l.filter P).map f).sum = (l.map fun e => if P e then f e else 0).sum := by
  induction l with
  | nil => rfl
  | cons e l ih =>
    rw [List.filter_cons]
    by_cases h : P e
    · simp [h, ih]
    · simp [h, ih]

theorem mat_list_sum {ι : Type*} (l : List ι) (f : ι → Matrix (Fin m) (Fin m) ℂ) (i j : Fin m) : (l.map f).sum i j = (l.map fun e => f e i j).sum := by
  induction l with
  | nil => rfl
  | cons e l ih => simp only [List.map_cons, List.sum_cons, Matrix.add_apply, ih]

/-- The element of a ladder word that the code evaluates. -/
noncomputable def ladSeen (B : ℝ) (w : List Ladder) (n n' : ℕ) : ℂ := if B < 0 then ladderOp (seen B w) (Pi.single n 1) n' else ladderOp (seen B w) (Pi.single n' 1) n

theorem ladSeen_net (B : ℝ) (w : List Ladder) (n n' : ℕ) (h : net w ≠ (n : ℤ) - n') : ladSeen B w n n' = 0 := by
  unfold ladSeen seen
  by_cases hB : B < 0
  · rw [if_pos hB, if_pos hB]; apply ladder_net; rw [net_swap]; omega
  · rw [if_neg hB, if_neg hB]; apply ladder_net; omega

theorem ladSeen_eval (B : ℝ) (w : List Ladder) (n n' : ℕ) (h : net w = (n : ℤ) - n')
    (hs : (evaluateLadderTerm (ladderTerm w) (if B < 0 then n else n') B).isSome = true) :
    (((evaluateLadderTerm (ladderTerm w) (if B < 0 then n else n') B).getD 0 : ℝ) : ℂ) = ladSeen B w n n' := by
  obtain ⟨v, hv⟩ := Option.isSome_iff_exists.mp hs
  rw [hv, Option.getD_some]
  unfold ladSeen seen
  by_cases hB : B < 0
  · rw [if_pos hB] at hv
    rw [if_pos hB, if_pos hB]
    exact ((evaluate_ladder_term w n n' B v hv).2 hB (by omega)).symm
  · rw [if_neg hB] at hv
    rw [if_neg hB, if_neg hB]
    exact ((evaluate_ladder_term w n' n B v hv).1 (not_lt.mp hB) (by omega)).symm

theorem sum_ladSeen (B : ℝ) (w : List KM) (n n' : ℕ) : ((expandK B w).map fun p => p.2 * ladSeen B p.1 n n').sum = kSeen B w n n' := by
  have h := fun φ k => congrFun (expand_op B w φ) k
  simp only [list_sum_apply, Pi.smul_apply, smul_eq_mul] at h
  unfold ladSeen kSeen kE
  by_cases hB : B < 0
  · simp only [hB, if_true]; exact h _ _
  · simp only [hB, if_false]; exact h _ _

/-- The value of a hopping kind that is kept. -/
theorem parts_value (kpar : Axis → ℂ) (ax : Axis) (B : ℝ) (ham : Fin m → Fin m → List LTerm) (d) (hd : d.Perm (landauDict kpar ax B ham)) (a x : Pos) (z : ℤ) (hz : 0 ≤ z) (n n' : ℕ)
    (M) (h : partsValue B a ((landauKept d).filter fun p => decide (kindOf p.1 = ([z], (n : ℤ) - n'))) x (if B < 0 then n else n') = some M) :
    M = gVal kpar ax B ham a x [z] n n' := by
  have hsome : ∀ p ∈ (landauKept d).filter (fun p => decide (kindOf p.1 = ([z], (n : ℤ) - n'))), (evaluateLadderTerm (ladderTerm p.1.2) (if B < 0 then n else n') B).isSome = true := by
    by_contra hno
    unfold partsValue at h
    rw [if_neg] at h
    · cases h
    · intro hall; exact hno (List.all_eq_true.mp hall)
  unfold partsValue at h
  rw [if_pos (List.all_eq_true.mpr hsome)] at h
  · injection h with h
    subst h
    ext i j
    rw [mat_list_sum, sum_filter_ite]
    unfold landauKept
    rw [sum_filter_ite]
    have hg := (dict_spec kpar ax B ham).2.2 a x i j [z] (fun w => ladSeen B w n n') rfl
    simp only [sum_ladSeen] at hg
    unfold gVal
    rw [← hg, ← (hd.map _).sum_eq]
    congr 1
    apply List.map_congr_left
    intro p hp
    have hmk := mem_kept kpar ax B ham d hd p
    unfold landauKept at hmk
    rw [List.mem_filter] at hmk
    by_cases hk : p.1.1 = [z]
    · have hkept : p.1.1 = [0] ∨ FirstPos p.1.1 := by
        rw [hk, firstPos_single]
        rcases hz.eq_or_lt with h | h
        · left; rw [← h]
        · right; exact h
      have hdec := (hmk.mpr ⟨hp, hkept⟩).2
      rw [if_pos hdec, if_pos hk]
      by_cases hn : net p.1.2 = (n : ℤ) - n'
      · have hkind : kindOf p.1 = ([z], (n : ℤ) - n') := Prod.ext hk hn
        rw [if_pos (by simpa using hkind)]
        rw [Matrix.smul_apply, smul_eq_mul, ladSeen_eval B p.1.2 n n' hn]
        refine hsome p ?_
        rw [List.mem_filter]
        refine ⟨?_, by simpa using hkind⟩
        unfold landauKept
        rw [List.mem_filter]; exact ⟨hp, hdec⟩
      · have hkind : ¬ kindOf p.1 = ([z], (n : ℤ) - n') := fun e => hn (congrArg Prod.snd e)
        rw [if_neg (by simpa using hkind), ladSeen_net B p.1.2 n n' hn, zero_mul]
    · have hkind : ¬ kindOf p.1 = ([z], (n : ℤ) - n') := fun e => hk (congrArg Prod.fst e)
      rw [if_neg hk]
      split
      · rw [if_neg (by simpa using hkind)]
      · rfl

/-- No hopping kind, no value. -/
theorem no_kind (kpar : Axis → ℂ) (ax : Axis) (B : ℝ) (ham : Fin m → Fin m → List LTerm) (d) (hd : d.Perm (landauDict kpar ax B ham)) (a x : Pos) (z : ℤ) (hz : 0 ≤ z) (n n' : ℕ)
    (h : ([z], (n : ℤ) - n') ∉ (landauKept d).map fun p => kindOf p.1) : gVal kpar ax B ham a x [z] n n' = 0 := by
  have : (landauKept d).filter (fun p => decide (kindOf p.1 = ([z], (n : ℤ) - n'))) = [] := by
    rw [List.filter_eq_nil_iff]
    intro p hp hk
    exact h (List.mem_map.mpr ⟨p, hp, by simpa using hk⟩)
  refine (parts_value kpar ax B ham d hd a x z hz n n' 0 ?_).symm
  rw [this]; rfl

theorem gridAt_zpos (xpar : Pos) (ax : Axis) (gs : ℝ) (z z' : ℤ) : gridAt [ax] [z - z'] (fun _ => gs) (zpos xpar ax gs z') = zpos xpar ax gs z := by
  have := gridAt_map [ax] (by simp) (fun _ => z - z') (fun _ => gs) (zpos xpar ax gs z')
  simp only [List.map_cons, List.map_nil] at this
  rw [this]
  funext c
  unfold zpos
  by_cases hc : c = ax
  · subst hc; simp; ring
  · simp [hc]

theorem mem_firstOccs {α : Type*} [DecidableEq α] (l : List α) (x : α) : x ∈ firstOccs l ↔ x ∈ l := by simp [firstOccs]

/-- The matrix elements. -/
theorem element_value (kpar : Axis → ℂ) (hk : ∀ c, star (kpar c) = kpar c) (xpar : Pos) (ax : Axis) (gs B : ℝ) (ham : Fin m → Fin m → List LTerm) (hh : LandauHermitian ham)
    (d) (hd : d.Perm (landauDict kpar ax B ham)) (s s' : ℤ × ℕ) (M) (h : (landauSystem B xpar ax gs d).element s s' = some M) :
    M = gVal kpar ax B ham (fun _ => gs) (zpos xpar ax gs s'.1) [s.1 - s'.1] s.2 s'.2 := by
  classical
  obtain ⟨z, n⟩ := s
  obtain ⟨z', n'⟩ := s'
  have hadj : ∀ (z z' : ℤ) (n n' : ℕ), (gVal kpar ax B ham (fun _ => gs) (zpos xpar ax gs z) [z' - z] n' n)ᴴ = gVal kpar ax B ham (fun _ => gs) (zpos xpar ax gs z') [z - z'] n n' := by
    intro z z' n n'
    have := gVal_adj kpar hk ax B ham hh (fun _ => gs) (zpos xpar ax gs z) [z' - z] rfl n' n
    rw [gridAt_zpos] at this
    rw [← this]
    simp [negKey]
  unfold LandauSystem.element at h
  by_cases hs : (z, n) = (z', n')
  · rw [if_pos hs] at h
    simp only [Prod.mk.injEq] at hs
    obtain ⟨rfl, rfl⟩ := hs
    simp only [landauSystem] at h
    rw [sub_self]
    refine parts_value kpar ax B ham d hd _ _ 0 le_rfl n n M ?_
    rw [sub_self, ite_self]
    convert h
  · rw [if_neg hs] at h
    set L := ((firstOccs ((landauKept d).map fun p => kindOf p.1)).filter fun k => decide (k ≠ ([0], 0))).map fun k =>
      (k, fun s s' : ℤ × ℕ => partsValue B (fun _ => gs) ((landauKept d).filter fun p => decide (kindOf p.1 = k)) (zpos xpar ax gs s'.1) (if B < 0 then s.2 else s'.2)) with hL
    have hT : (landauSystem B xpar ax gs d).hops = (([0], 1), fun _ _ => some 0) :: L := by
      simp only [landauSystem, hL]
    rw [hT, List.reverse_cons, List.find?_append] at h
    have hhop : ∀ r ∈ L, r.1 ∈ (landauKept d).map (fun p => kindOf p.1) ∧ r.1 ≠ ([0], 0) ∧
        r.2 = fun s s' => partsValue B (fun _ => gs) ((landauKept d).filter fun p => decide (kindOf p.1 = r.1)) (zpos xpar ax gs s'.1) (if B < 0 then s.2 else s'.2) := by
      intro r hr
      simp only [hL, List.mem_map, List.mem_filter, mem_firstOccs] at hr
      obtain ⟨k, ⟨⟨p, hp, rfl⟩, hk0⟩, rfl⟩ := hr
      exact ⟨List.mem_map.mpr ⟨p, hp, rfl⟩, by simpa using hk0, rfl⟩
    have hin : ∀ k, k ∈ (landauKept d).map (fun p => kindOf p.1) → k ≠ ([0], 0) → ∃ r ∈ L, r.1 = k := by
      intro k h1 h2
      refine ⟨_, List.mem_map.mpr ⟨k, ?_, rfl⟩, rfl⟩
      rw [List.mem_filter, mem_firstOccs]; exact ⟨h1, by simpa using h2⟩
    -- all the kinds that are kept have a nonnegative offset
    have hnn : ∀ (y : ℤ) (c : ℤ), (([y], c) : List ℤ × ℤ) ∈ (landauKept d).map (fun p => kindOf p.1) → 0 ≤ y := by
      intro y c hy
      obtain ⟨p, hp, he⟩ := List.mem_map.mp hy
      have h1 : p.1.1 = [y] := congrArg Prod.fst he
      rcases ((mem_kept kpar ax B ham d hd p).mp hp).2 with h2 | h2
      · rw [h1] at h2; exact (List.cons.inj h2).1.ge
      · rw [h1, firstPos_single] at h2; exact h2.le
    -- if there is no kind for the pair, the value is zero
    have hnone : (∀ k, (k = tagDiff (z, n) (z', n') ∨ k = tagDiff (z', n') (z, n)) → k ∉ (landauKept d).map (fun p => kindOf p.1)) →
        gVal kpar ax B ham (fun _ => gs) (zpos xpar ax gs z') [z - z'] n n' = 0 := by
      intro hno
      by_cases hzz : 0 ≤ z - z'
      · exact no_kind kpar ax B ham d hd _ _ _ hzz n n' (hno _ (Or.inl rfl))
      · rw [← hadj, no_kind kpar ax B ham d hd _ _ (z' - z) (by omega) n' n (hno _ (Or.inr rfl)), Matrix.conjTranspose_zero]
    have hne : ∀ k, (k = tagDiff (z, n) (z', n') ∨ k = tagDiff (z', n') (z, n)) → k ≠ ([0], 0) := by
      rintro k hk0 rfl
      apply hs
      rcases hk0 with hk0 | hk0
      all_goals
        simp only [tagDiff, Prod.mk.injEq, List.cons.injEq, and_true] at hk0
        rw [Prod.mk.injEq]; omega
    cases hfind : L.reverse.find? (fun p => decide (p.1 = tagDiff (z, n) (z', n') ∨ p.1 = tagDiff (z', n') (z, n))) with
    | none =>
      have hzero : gVal kpar ax B ham (fun _ => gs) (zpos xpar ax gs z') [z - z'] n n' = 0 := by
        apply hnone
        intro k hk0 hmem
        rw [List.find?_eq_none] at hfind
        obtain ⟨r, hr, he⟩ := hin k hmem (hne k hk0)
        have := hfind r (List.mem_reverse.mpr hr)
        apply this; rw [he]; simpa using hk0
      rw [hzero]
      rw [hfind, Option.none_or, List.find?_singleton] at h
      split at h
      · injection h with h; exact h.symm
      · next r hr =>
        have hr2 : r = (([0], 1), fun _ _ => some 0) := by
          split at hr
          · injection hr with hr; exact hr.symm
          · cases hr
        rw [hr2] at h
        split at h
        · injection h with h; exact h.symm
        · simp only [Option.map_some, Option.some.injEq, Matrix.conjTranspose_zero] at h; exact h.symm
    | some r =>
      rw [hfind, Option.some_or] at h
      simp only at h
      have hr := List.mem_reverse.mp (List.mem_of_find?_eq_some hfind)
      have hrk : r.1 = tagDiff (z, n) (z', n') ∨ r.1 = tagDiff (z', n') (z, n) := by simpa using List.find?_some hfind
      obtain ⟨hmem, -, hval⟩ := hhop r hr
      split at h
      · next h1 =>
        rw [h1] at hmem
        rw [hval, h1] at h
        exact parts_value kpar ax B ham d hd _ _ _ (hnn _ _ hmem) n n' M h
      · next h1 =>
        have h2 := hrk.resolve_left h1
        rw [h2] at hmem
        rw [hval, h2] at h
        obtain ⟨M', hM', rfl⟩ := Option.map_eq_some_iff.mp h
        rw [← hadj, parts_value kpar ax B ham d hd _ _ _ (hnn _ _ hmem) n' n M' hM']

end Kwant.Continuum
