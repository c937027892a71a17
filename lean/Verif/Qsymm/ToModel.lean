import Verif.Qsymm.Model
import Mathlib.Algebra.BigOperators.Finprod
import Mathlib.Tactic.Ring
import Mathlib.Tactic.Abel
import Mathlib.Data.Sign.Basic
import Mathlib.Data.Matrix.Basic

/-!
# C151: builder_to_model
-/
set_option linter.unusedSectionVars false

namespace Kwant.Qsymm
open Complex

variable {D dim : ℕ}

/-! ## Slices -/

theorem slices_fold (norbs : ℕ → Option ℕ) : ∀ (sites : List ℕ) (acc : List (ℕ × ℕ × ℕ)) (N : ℕ) (r : List (ℕ × ℕ × ℕ) × ℕ),
    sites.foldl (fun st a => st.bind fun st => (norbs a).map fun n => (st.1 ++ [(a, st.2, n)], st.2 + n)) (some (acc, N)) = some r →
    (∀ a ∈ sites, (norbs a).isSome) ∧ ∃ l, r.1 = acc ++ l ∧ ∀ a, l.lookup a =
      if a ∈ sites then some (N + ((sites.takeWhile (· ≠ a)).map fun b => (norbs b).getD 0).sum, (norbs a).getD 0) else none := by
  intro sites
  induction sites with
  | nil =>
    intro acc N r h
    obtain rfl : (acc, N) = r := by simpa using h
    exact ⟨by simp, [], by simp, by simp⟩
  | cons s sites ih =>
    intro acc N r h
    rw [List.foldl_cons, Option.bind_some] at h
    cases hn : norbs s with
    | none =>
      rw [hn, Option.map_none] at h
      have : ∀ l : List ℕ, l.foldl (fun (st : Option (List (ℕ × ℕ × ℕ) × ℕ)) a => st.bind fun st =>
          (norbs a).map fun n => (st.1 ++ [(a, st.2, n)], st.2 + n)) none = none := by
        intro l
        induction l with
        | nil => rfl
        | cons a l ih => rw [List.foldl_cons, Option.bind_none, ih]
      rw [this] at h
      cases h
    | some n =>
      rw [hn, Option.map_some] at h
      obtain ⟨h1, l, h2, h3⟩ := ih _ _ _ h
      refine ⟨?_, (s, N, n) :: l, by rw [h2]; simp, ?_⟩
      · intro a ha
        rcases List.mem_cons.mp ha with rfl | ha
        · rw [hn]; rfl
        · exact h1 a ha
      · intro a
        by_cases has : a = s
        · subst has
          simp [hn]
        · have hsa : (s ≠ a) := fun h => has h.symm
          have hb : (a == s) = false := by simpa using has
          rw [List.lookup_cons, hb]
          simp only [h3 a, List.mem_cons, has, false_or]
          have ht : (s :: sites).takeWhile (· ≠ a) = s :: sites.takeWhile (· ≠ a) := by
            rw [List.takeWhile_cons]; simp [hsa]
          rw [ht, List.map_cons, List.sum_cons, hn, Option.getD_some]
          split_ifs
          · rw [add_assoc]
          · rfl

theorem slices_spec {norbs : ℕ → Option ℕ} {sites : List ℕ} {sl : List (ℕ × ℕ × ℕ)} {N : ℕ}
    (h : orbitalSlices norbs sites = some (sl, N)) : (∀ a ∈ sites, (norbs a).isSome) ∧
    ∀ a ∈ sites, sliceOf sl a = (((sites.takeWhile (· ≠ a)).map fun b => (norbs b).getD 0).sum, (norbs a).getD 0) := by
  obtain ⟨h1, l, h2, h3⟩ := slices_fold norbs sites [] 0 _ h
  refine ⟨h1, ?_⟩
  intro a ha
  have h2 : sl = l := by simpa using h2
  rw [sliceOf, h2, h3 a, if_pos ha, Option.getD_some, zero_add]

/-- Slices do not overlap. -/
theorem starts_disjoint (f : ℕ → ℕ) : ∀ (sites : List ℕ) (a b : ℕ), a ∈ sites → b ∈ sites → a ≠ b →
    ((sites.takeWhile (· ≠ a)).map f).sum + f a ≤ ((sites.takeWhile (· ≠ b)).map f).sum ∨
    ((sites.takeWhile (· ≠ b)).map f).sum + f b ≤ ((sites.takeWhile (· ≠ a)).map f).sum := by
  intro sites
  induction sites with
  | nil => intro a b ha; cases ha
  | cons s sites ih =>
    intro a b ha hb hab
    by_cases hsa : s = a
    · subst hsa
      left
      simp only [List.takeWhile_cons, ne_eq, not_true_eq_false, decide_false, hab, not_false_eq_true, decide_true]
      simp
    · by_cases hsb : s = b
      · subst hsb
        right
        simp only [List.takeWhile_cons, ne_eq, not_true_eq_false, decide_false, hsa, not_false_eq_true, decide_true]
        simp
      · have h1 : a ∈ sites := (List.mem_cons.mp ha).resolve_left (fun h => hsa h.symm)
        have h2 : b ∈ sites := (List.mem_cons.mp hb).resolve_left (fun h => hsb h.symm)
        simp only [List.takeWhile_cons, ne_eq, hsa, hsb, not_false_eq_true, decide_true]
        rcases ih a b h1 h2 hab with h | h
        · left; simp only [if_true, List.map_cons, List.sum_cons, ne_eq] at h ⊢; omega
        · right; simp only [if_true, List.map_cons, List.sum_cons, ne_eq] at h ⊢; omega

/-! ## Values -/

theorem eval_append (m m' : List (Term dim)) (k : Fin dim → ℝ) (x : Values) (i j : ℕ) :
    evalModel (m ++ m') k x i j = evalModel m k x i j + evalModel m' k x i j := by
  simp [evalModel]

theorem eval_flatMap {α : Type} (l : List α) (f : α → List (Term dim)) (k : Fin dim → ℝ) (x : Values) (i j : ℕ) :
    evalModel (l.flatMap f) k x i j = (l.map fun a => evalModel (f a) k x i j).sum := by
  induction l with
  | nil => simp [evalModel]
  | cons a l ih => rw [List.flatMap_cons, eval_append, ih, List.map_cons, List.sum_cons]

theorem eval_term (d : Fin dim → ℝ) (par : Option String) (m : Mat) (k : Fin dim → ℝ) (x : Values) (i j : ℕ) :
    evalModel (termToModel d par m) k x i j = Complex.exp (I * ((k ⬝ᵥ d : ℝ) : ℂ)) * par.elim 1 x * m i j := by
  classical
  unfold termToModel
  split_ifs with h
  · simp [evalModel, h]
  · simp [evalModel]

/-- An affine function is the sum of its terms. -/
theorem terms_sum {fixed : String → Option ℂ} {names : List String} {f : List ℂ → Mat} (hA : (Val.func names f).Affine fixed)
    {x : Values} (hx : Admissible fixed x) (i j : ℕ) :
    ((functionToTerms fixed names f).map fun t => t.1.elim 1 x * t.2 i j).sum = f (names.map x) i j := by
  obtain ⟨hn, A, B, hAB⟩ := hA
  have harg : ∀ q p v, fixed p = some v → argument fixed q p = v := by
    intro q p v h
    rw [argument, h]
  have h0 : f (names.map (argument fixed none)) i j = A i j := by
    rw [hAB _ (harg none)]
    rw [show (List.map (fun p => argument fixed none p * B p i j) (names.filter fun p => fixed p = none)).sum = 0 from ?_, add_zero]
    apply List.sum_eq_zero
    intro z hz
    obtain ⟨p, hp, rfl⟩ := List.mem_map.mp hz
    have hp := (List.mem_filter.mp hp).2
    simp only [decide_eq_true_eq] at hp
    rw [argument, hp]
    simp
  have h1 : ∀ p ∈ names.filter (fun p => fixed p = none), f (names.map (argument fixed (some p))) i j = A i j + B p i j := by
    intro p hp
    rw [hAB _ (harg (some p))]
    congr 1
    have hnd : (names.filter fun p => fixed p = none).Nodup := hn.filter _
    have hval : ∀ q ∈ names.filter (fun p => fixed p = none), argument fixed (some p) q * B q i j = if q = p then B p i j else 0 := by
      intro q hq
      have hq := (List.mem_filter.mp hq).2
      simp only [decide_eq_true_eq] at hq
      rw [argument, hq]
      by_cases h : q = p
      · subst h; simp
      · have h' : ¬ (some p = some q) := fun h' => h (Option.some.inj h').symm
        simp only [if_neg h, if_neg h', zero_mul]
    rw [List.map_congr_left hval]
    rw [← List.sum_toFinset _ hnd, Finset.sum_ite_eq' _ p, if_pos (List.mem_toFinset.mpr hp)]
  have hxf : ∀ p v, fixed p = some v → x p = v := by
    intro p v h
    have := hx p
    rw [h] at this
    exact this
  rw [hAB x hxf]
  simp only [functionToTerms, List.map_append, List.sum_append, List.map_cons, List.map_nil, List.sum_cons, List.sum_nil,
    Option.elim_none, one_mul, add_zero, List.map_map, h0]
  rw [add_comm]
  congr 2
  apply List.map_congr_left
  intro p hp
  simp only [Function.comp_apply, Option.elim_some, Pi.sub_apply, h1 p hp, h0]
  rw [add_sub_cancel_left]

theorem setBlock_sum {s1 s2 : ℕ × ℕ} {α : Type} (l : List α) (c : α → ℂ) (m : α → Mat) (i j : ℕ) :
    (l.map fun a => c a * setBlock s1 s2 (m a) i j).sum = setBlock s1 s2 (fun i j => (l.map fun a => c a * m a i j).sum) i j := by
  unfold setBlock
  split_ifs
  · rfl
  · simp

/-- The terms of a value add up to it. -/
theorem eval_value {fixed : String → Option ℂ} (d : Fin dim → ℝ) (s1 s2 : ℕ × ℕ) {v : Val} (hv : v.Affine fixed)
    (k : Fin dim → ℝ) {x : Values} (hx : Admissible fixed x) (i j : ℕ) :
    evalModel (valueToModel fixed d s1 s2 v) k x i j =
      Complex.exp (I * ((k ⬝ᵥ d : ℝ) : ℂ)) * setBlock s1 s2 (v.eval x) i j := by
  cases v with
  | const m => simp [valueToModel, eval_term, Val.eval]
  | func names f =>
    simp only [valueToModel, eval_flatMap, eval_term, Val.eval]
    have h := setBlock_sum (s1 := s1) (s2 := s2) (functionToTerms fixed names f) (fun t => t.1.elim 1 x) (fun t => t.2) i j
    simp only [terms_sum hv hx] at h
    simp only [mul_assoc]
    rw [List.sum_map_mul_left, h]

theorem value_pars {fixed : String → Option ℂ} {d : Fin dim → ℝ} {s1 s2 : ℕ × ℕ} {v : Val} {t : Term dim}
    (ht : t ∈ valueToModel fixed d s1 s2 v) {x : Values} (hx : Admissible fixed x) :
    (starRingEnd ℂ) (t.par.elim 1 x) = t.par.elim 1 x := by
  classical
  have key : ∀ par m, t ∈ termToModel d par m → t.par = par := by
    intro par m h
    unfold termToModel at h
    split_ifs at h
    · cases h
    · rw [List.mem_singleton] at h; rw [h]
  cases v with
  | const m =>
    rw [key _ _ ht]; simp
  | func names f =>
    simp only [valueToModel, List.mem_flatMap] at ht
    obtain ⟨u, hu, ht⟩ := ht
    rw [key _ _ ht]
    simp only [functionToTerms, List.mem_append, List.mem_map, List.mem_filter, decide_eq_true_eq, List.mem_singleton] at hu
    rcases hu with ⟨p, ⟨_, hp⟩, rfl⟩ | rfl
    · have := hx p
      rw [hp] at this
      simpa using this
    · simp

/-- The adjoint of the terms. -/
theorem eval_adjoint {m : List (Term dim)} {x : Values} (h : ∀ t ∈ m, (starRingEnd ℂ) (t.par.elim 1 x) = t.par.elim 1 x)
    (k : Fin dim → ℝ) (i j : ℕ) :
    evalModel (m.map Term.adjoint) k x i j = (starRingEnd ℂ) (evalModel m k x j i) := by
  unfold evalModel
  rw [map_list_sum, List.map_map, List.map_map]
  congr 1
  apply List.map_congr_left
  intro t ht
  simp only [Function.comp_apply, Term.adjoint, map_mul, h t ht]
  rw [← Complex.exp_conj]
  congr 3
  rw [map_mul, conj_I, conj_ofReal, dotProduct_neg]
  push_cast
  ring

/-! ## C151 -/

section
variable {s : Syst D dim}

theorem displacement_reverse (s : Syst D dim) (proj : Matrix (Fin dim) (Fin D) ℝ) (rs : Bool) (a b : ℕ) (R : Fin dim → ℤ) :
    displacement s proj rs (b, -R, a) = -displacement s proj rs (a, R, b) := by
  unfold displacement
  split_ifs
  · simp only
    rw [← Matrix.mulVec_neg]
    congr 1
    simp only [Syst.sitePos, Pi.neg_apply, Int.cast_neg, neg_smul, Finset.sum_neg_distrib]
    abel
  · funext i
    simp

theorem displacement_zero (s : Syst D dim) (proj : Matrix (Fin dim) (Fin D) ℝ) (rs : Bool) (a : ℕ) :
    displacement s proj rs (a, 0, a) = 0 := by
  unfold displacement
  split_ifs
  · simp [Syst.sitePos]
  · funext i; simp

theorem block_at {norbs : ℕ → Option ℕ} {sites : List ℕ} {sl : List (ℕ × ℕ × ℕ)} {N : ℕ}
    (h : orbitalSlices norbs sites = some (sl, N)) {a b a' b' i j : ℕ} (ha : a ∈ sites) (hb : b ∈ sites)
    (ha' : a' ∈ sites) (hb' : b' ∈ sites) (hi : i < (norbs a).getD 0) (hj : j < (norbs b).getD 0) (m : Mat) :
    setBlock (sliceOf sl a') (sliceOf sl b') m
      (((sites.takeWhile (· ≠ a)).map fun b => (norbs b).getD 0).sum + i)
      (((sites.takeWhile (· ≠ b)).map fun b => (norbs b).getD 0).sum + j) = if a' = a ∧ b' = b then m i j else 0 := by
  obtain ⟨_, hs⟩ := slices_spec h
  unfold setBlock
  rw [hs a' ha', hs b' hb']
  simp only
  by_cases h1 : a' = a
  · subst h1
    by_cases h2 : b' = b
    · subst h2
      rw [if_pos ⟨⟨by omega, by omega⟩, ⟨by omega, by omega⟩⟩, if_pos ⟨rfl, rfl⟩, Nat.add_sub_cancel_left,
        Nat.add_sub_cancel_left]
    · rw [if_neg, if_neg (fun h => h2 h.2)]
      rintro ⟨_, h3, h4⟩
      rcases starts_disjoint (fun b => (norbs b).getD 0) sites b' b hb' hb h2 with h | h <;> omega
  · rw [if_neg, if_neg (fun h => h1 h.1)]
    rintro ⟨⟨h3, h4⟩, _⟩
    rcases starts_disjoint (fun b => (norbs b).getD 0) sites a' a ha' ha h1 with h | h <;> omega

/-- The cells that appear in the system. -/
def cells (s : Syst D dim) : Finset (Fin dim → ℤ) :=
  insert 0 ((s.hops.map fun h => h.1.2.1).toFinset ∪ (s.hops.map fun h => -h.1.2.1).toFinset)

theorem amplitude_support (s : Syst D dim) {x : Values} {a b : ℕ} {R : Fin dim → ℤ} {i j : ℕ} (h : R ∉ cells s) :
    amplitude s x a b R i j = 0 := by
  have h0 : R ≠ 0 := fun h' => h (by rw [h']; exact Finset.mem_insert_self _ _)
  have hh : ∀ e ∈ s.hops, e.1.2.1 ≠ R ∧ e.1.2.1 ≠ -R := by
    intro e he
    constructor
    · intro h'
      exact h (Finset.mem_insert_of_mem (Finset.mem_union_left _ (List.mem_toFinset.mpr (List.mem_map.mpr ⟨e, he, h'⟩))))
    · intro h'
      refine h (Finset.mem_insert_of_mem (Finset.mem_union_right _ (List.mem_toFinset.mpr (List.mem_map.mpr ⟨e, he, ?_⟩))))
      rw [h', neg_neg]
  unfold amplitude
  rw [List.sum_eq_zero, List.sum_eq_zero, add_zero]
  · intro z hz
    obtain ⟨e, he, rfl⟩ := List.mem_map.mp hz
    have h1 : e.1 ≠ (a, R, b) := fun h' => (hh e he).1 (by rw [h'])
    have h2 : e.1 ≠ (b, -R, a) := fun h' => (hh e he).2 (by rw [h'])
    rw [if_neg h1, if_neg h2, add_zero]
  · intro z hz
    obtain ⟨o, _, rfl⟩ := List.mem_map.mp hz
    rw [if_neg (fun h' => h0 h'.2.2)]

theorem finsum_cells (s : Syst D dim) {x : Values} {a b i j : ℕ} (f : (Fin dim → ℤ) → ℂ) :
    ∑ᶠ R, f R * amplitude s x a b R i j = ∑ R ∈ cells s, f R * amplitude s x a b R i j := by
  apply finsum_eq_sum_of_support_subset
  intro R hR
  by_contra h
  exact hR (by show f R * amplitude s x a b R i j = 0; rw [amplitude_support s h, mul_zero])

theorem list_finset_sum {α β : Type} (F : Finset β) (l : List α) (f : α → β → ℂ) :
    ∑ R ∈ F, (l.map fun a => f a R).sum = (l.map fun a => ∑ R ∈ F, f a R).sum := by
  induction l with
  | nil => simp
  | cons a l ih => simp only [List.map_cons, List.sum_cons, Finset.sum_add_distrib, ih]

/-- C151: the Hamiltonian of the model at momentum `k` is the sum of the matrix elements of the infinite system with phases
`exp(i k · d)`, for the real-space and the unit-cell convention. -/
theorem C151_elements (hs : s.Ok) {proj : Matrix (Fin dim) (Fin D) ℝ} {rs : Bool} {fixed : String → Option ℂ}
    {m : List (Term dim)} (hm : builderToModel s proj rs fixed = some m) (haff : ∀ o ∈ s.onsites, o.2.Affine fixed)
    (haff' : ∀ h ∈ s.hops, h.2.Affine fixed) {x : Values} (hx : Admissible fixed x) (k : Fin dim → ℝ)
    {a b i j : ℕ} (ha : a ∈ s.sites) (hb : b ∈ s.sites) (hi : i < (s.norbs a).getD 0) (hj : j < (s.norbs b).getD 0) :
    evalModel m k x (s.start a + i) (s.start b + j) =
      ∑ᶠ R, Complex.exp (I * ((k ⬝ᵥ displacement s proj rs (a, R, b) : ℝ) : ℂ)) * amplitude s x a b R i j := by
  classical
  rw [finsum_cells]
  unfold builderToModel at hm
  obtain ⟨⟨sl, N⟩, hsl, rfl⟩ := Option.map_eq_some_iff.mp hm
  simp only
  rw [eval_append, eval_append, eval_adjoint, eval_flatMap, eval_flatMap, eval_flatMap]
  · simp only [amplitude, mul_add, Finset.sum_add_distrib, ← List.sum_map_mul_left, list_finset_sum]
    congr 1
    · -- onsites
      congr 1
      apply List.map_congr_left
      intro o ho
      rw [eval_value _ _ _ (haff o ho) k hx]
      unfold Syst.start
      rw [block_at hsl ha hb (hs.onsites o ho) (hs.onsites o ho) hi hj]
      rw [Finset.sum_eq_single (0 : Fin dim → ℤ)]
      · by_cases h : o.1 = a ∧ o.1 = b
        · have h' : o.1 = a ∧ a = b ∧ (0 : Fin dim → ℤ) = 0 := ⟨h.1, h.1.symm.trans h.2, rfl⟩
          rw [if_pos h, if_pos h', ← h'.2.1, displacement_zero]
        · have h' : ¬ (o.1 = a ∧ a = b ∧ (0 : Fin dim → ℤ) = 0) := fun h' => h ⟨h'.1, h'.1.trans h'.2.1⟩
          rw [if_neg h, if_neg h', mul_zero, mul_zero]
      · intro R _ hR
        rw [if_neg (fun h => hR h.2.2), mul_zero]
      · exact fun h => absurd (Finset.mem_insert_self _ _) h
    · rw [map_list_sum, List.map_map, ← List.sum_map_add]
      congr 1
      apply List.map_congr_left
      intro h hh
      simp only [Function.comp_apply]
      rw [eval_value _ _ _ (haff' h hh) k hx, eval_value _ _ _ (haff' h hh) k hx]
      unfold Syst.start
      rw [block_at hsl ha hb (hs.hops h hh).1 (hs.hops h hh).2 hi hj, block_at hsl hb ha (hs.hops h hh).1 (hs.hops h hh).2 hj hi]
      have hmem : h.1.2.1 ∈ cells s :=
        Finset.mem_insert_of_mem (Finset.mem_union_left _ (List.mem_toFinset.mpr (List.mem_map.mpr ⟨h, hh, rfl⟩)))
      have hmem' : -h.1.2.1 ∈ cells s :=
        Finset.mem_insert_of_mem (Finset.mem_union_right _ (List.mem_toFinset.mpr (List.mem_map.mpr ⟨h, hh, rfl⟩)))
      congr 1
      · rw [Finset.sum_eq_single h.1.2.1]
        · by_cases hc : h.1.1 = a ∧ h.1.2.2 = b
          · have hc' : h.1 = (a, h.1.2.1, b) := by rw [← hc.1, ← hc.2]
            rw [if_pos hc, if_pos hc', ← hc']
          · have hc' : h.1 ≠ (a, h.1.2.1, b) := fun h' => hc ⟨by rw [h'], by rw [h']⟩
            rw [if_neg hc, if_neg hc', mul_zero, mul_zero]
        · intro R _ hR
          rw [if_neg (fun h' => hR (by rw [h'])), mul_zero]
        · exact fun h' => absurd hmem h'
      · rw [Finset.sum_eq_single (-h.1.2.1)]
        · by_cases hc : h.1.1 = b ∧ h.1.2.2 = a
          · have hc' : h.1 = (b, - -h.1.2.1, a) := by rw [neg_neg, ← hc.1, ← hc.2]
            rw [if_pos hc, if_pos hc', map_mul]
            congr 1
            rw [← Complex.exp_conj, map_mul, conj_I, conj_ofReal]
            have hd : displacement s proj rs h.1 = -displacement s proj rs (a, -h.1.2.1, b) := by
              rw [← displacement_reverse, ← hc']
            rw [hd, dotProduct_neg]
            push_cast
            congr 1
            ring
          · have hc' : h.1 ≠ (b, - -h.1.2.1, a) := fun h' => hc ⟨by rw [h'], by rw [h']⟩
            rw [if_neg hc, if_neg hc', mul_zero, mul_zero, map_zero]
        · intro R _ hR
          rw [if_neg (fun h' => hR (by rw [h', neg_neg])), mul_zero]
        · exact fun h' => absurd hmem' h'
  · intro t ht
    obtain ⟨h, _, ht⟩ := List.mem_flatMap.mp ht
    exact value_pars ht hx

/-- C151: the conversion succeeds exactly if all numbers of orbitals are known. -/
theorem C151_succeeds (s : Syst D dim) (proj : Matrix (Fin dim) (Fin D) ℝ) (rs : Bool) (fixed : String → Option ℂ) :
    (builderToModel s proj rs fixed).isSome ↔ ∀ a ∈ s.sites, (s.norbs a).isSome := by
  unfold builderToModel
  rw [Option.isSome_map]
  constructor
  · intro h
    obtain ⟨⟨sl, N⟩, hsl⟩ := Option.isSome_iff_exists.mp h
    exact (slices_spec hsl).1
  · intro h
    unfold orbitalSlices
    have : ∀ (sites : List ℕ) (st : List (ℕ × ℕ × ℕ) × ℕ), (∀ a ∈ sites, (s.norbs a).isSome) →
        (sites.foldl (fun st a => st.bind fun st => (s.norbs a).map fun n => (st.1 ++ [(a, st.2, n)], st.2 + n)) (some st)).isSome := by
      intro sites
      induction sites with
      | nil => intro st _; rfl
      | cons a l ih =>
        intro st h
        obtain ⟨n, hn⟩ := Option.isSome_iff_exists.mp (h a (by simp))
        rw [List.foldl_cons, Option.bind_some, hn, Option.map_some]
        exact ih _ fun b hb => h b (by simp [hb])
    exact this _ _ h

/-- The sum over the sites of all cells: the infinite system acts on a wave function (cell, site, orbital). -/
noncomputable def applyHam (s : Syst D dim) (x : Values) (ψ : (Fin dim → ℤ) → ℕ → ℕ → ℂ) (R : Fin dim → ℤ) (a i : ℕ) : ℂ :=
  (s.sites.map fun b => ∑ j ∈ Finset.range ((s.norbs b).getD 0), ∑ᶠ S, amplitude s x a b S i j * ψ (R + S) b j).sum

/-- C151, real space: the infinite system acts on a plane wave with amplitudes `u` like the Hamiltonian of the model on `u`. -/
theorem C151_wave (hs : s.Ok) {proj : Matrix (Fin dim) (Fin D) ℝ} {fixed : String → Option ℂ}
    {m : List (Term dim)} (hm : builderToModel s proj true fixed = some m) (haff : ∀ o ∈ s.onsites, o.2.Affine fixed)
    (haff' : ∀ h ∈ s.hops, h.2.Affine fixed) {x : Values} (hx : Admissible fixed x) (k : Fin dim → ℝ) (u : ℕ → ℂ)
    (R : Fin dim → ℤ) {a i : ℕ} (ha : a ∈ s.sites) (hi : i < (s.norbs a).getD 0) :
    applyHam s x (fun R b j => Complex.exp (I * ((k ⬝ᵥ proj.mulVec (s.sitePos R b) : ℝ) : ℂ)) * u (s.start b + j)) R a i =
      Complex.exp (I * ((k ⬝ᵥ proj.mulVec (s.sitePos R a) : ℝ) : ℂ)) *
        (s.sites.map fun b => ∑ j ∈ Finset.range ((s.norbs b).getD 0),
          evalModel m k x (s.start a + i) (s.start b + j) * u (s.start b + j)).sum := by
  unfold applyHam
  rw [← List.sum_map_mul_left]
  congr 1
  apply List.map_congr_left
  intro b hb
  rw [Finset.mul_sum]
  apply Finset.sum_congr rfl
  intro j hj
  rw [C151_elements hs hm haff haff' hx k ha hb hi (Finset.mem_range.mp hj), finsum_cells, Finset.sum_mul, Finset.mul_sum]
  rw [finsum_eq_sum_of_support_subset (s := cells s)]
  · apply Finset.sum_congr rfl
    intro S _
    have hpos : s.sitePos (R + S) b = s.sitePos R a + (s.sitePos S b - s.pos a) := by
      simp only [Syst.sitePos, Pi.add_apply, Int.cast_add, add_smul, Finset.sum_add_distrib]
      abel
    have he : Complex.exp (I * ((k ⬝ᵥ proj.mulVec (s.sitePos (R + S) b) : ℝ) : ℂ)) =
        Complex.exp (I * ((k ⬝ᵥ proj.mulVec (s.sitePos R a) : ℝ) : ℂ)) *
        Complex.exp (I * ((k ⬝ᵥ displacement s proj true (a, S, b) : ℝ) : ℂ)) := by
      rw [← Complex.exp_add, hpos, Matrix.mulVec_add, dotProduct_add]
      simp only [displacement, if_true]
      push_cast
      rw [mul_add]
    beta_reduce
    rw [he]
    ring
  · intro S hS
    by_contra h
    exact hS (by
      show amplitude s x a b S i j * _ = 0
      rw [amplitude_support s h, zero_mul])

end

/-! ## The projection -/

/-- `proj` (qsymm.py l.157-164) for fewer periods than dimensions: `sign(diag(r))` times the transposed matrix `q`. -/
noncomputable def projection (Q : Matrix (Fin D) (Fin dim) ℝ) (r : Matrix (Fin dim) (Fin dim) ℝ) : Matrix (Fin dim) (Fin D) ℝ :=
  Matrix.diagonal (fun i => (SignType.sign (r i i) : ℝ)) * Q.transpose

/-- C151, projection: for a QR decomposition of the matrix of periods, the projection is orthonormal and keeps the lengths and
angles of the periods, and the first period points along the first axis, the second one is in the plane of the first two, and
so on. -/
theorem C151_projection {periods : Matrix (Fin D) (Fin dim) ℝ} {Q : Matrix (Fin D) (Fin dim) ℝ} {r : Matrix (Fin dim) (Fin dim) ℝ}
    (hqr : periods = Q * r) (hQ : Q.transpose * Q = 1) (htri : ∀ i j, j < i → r i j = 0) (hdiag : ∀ i, r i i ≠ 0) :
    projection Q r * (projection Q r).transpose = 1 ∧
    (projection Q r * periods).transpose * (projection Q r * periods) = periods.transpose * periods ∧
    (∀ i j, j < i → (projection Q r * periods) i j = 0) ∧ ∀ i, 0 < (projection Q r * periods) i i := by
  have hS : Matrix.diagonal (fun i => (SignType.sign (r i i) : ℝ)) * Matrix.diagonal (fun i => (SignType.sign (r i i) : ℝ)) =
      (1 : Matrix (Fin dim) (Fin dim) ℝ) := by
    rw [Matrix.diagonal_mul_diagonal, ← Matrix.diagonal_one]
    congr 1
    funext i
    rcases lt_trichotomy (r i i) 0 with h | h | h
    · simp [sign_neg h]
    · exact absurd h (hdiag i)
    · simp [sign_pos h]
  have hp : projection Q r * periods = Matrix.diagonal (fun i => (SignType.sign (r i i) : ℝ)) * r := by
    rw [projection, hqr, Matrix.mul_assoc, ← Matrix.mul_assoc Q.transpose, hQ, Matrix.one_mul]
  refine ⟨?_, ?_, ?_, ?_⟩
  · rw [projection, Matrix.transpose_mul, Matrix.transpose_transpose, Matrix.diagonal_transpose, Matrix.mul_assoc,
      ← Matrix.mul_assoc Q.transpose, hQ, Matrix.one_mul, hS]
  · rw [hp, Matrix.transpose_mul, Matrix.diagonal_transpose, Matrix.mul_assoc, ← Matrix.mul_assoc (Matrix.diagonal _), hS,
      Matrix.one_mul, hqr, Matrix.transpose_mul, Matrix.mul_assoc, ← Matrix.mul_assoc Q.transpose, hQ, Matrix.one_mul]
  · intro i j hij
    rw [hp, Matrix.diagonal_mul, htri i j hij, mul_zero]
  · intro i
    rw [hp, Matrix.diagonal_mul]
    rcases lt_trichotomy (r i i) 0 with h | h | h
    · simp [sign_neg h, h]
    · exact absurd h (hdiag i)
    · simp [sign_pos h, h]

end Kwant.Qsymm
