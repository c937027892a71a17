import Verif.Continuum.Spec
import Verif.Continuum.Dict
import Mathlib.Tactic.Ring
import Mathlib.Tactic.FieldSimp
import Mathlib.Algebra.BigOperators.Group.List.Basic
import Mathlib.Algebra.BigOperators.Ring.List

/-! Lemmas: a summand as a word of elementary operators; its offsets, its gcd, its action. -/

set_option linter.unusedSectionVars false

namespace Kwant.Continuum

/-- An elementary operator: a momentum, or multiplication with a function. -/
inductive Atom where
  | D (c : Axis)
  | M (g : Pos → ℂ)

/-- The elementary operators of a factor. -/
noncomputable def atomsOf (kpar : Axis → ℂ) (coords : List Axis) : Factor → List Atom
  | .mom c e => if c ∈ coords then List.replicate e.toNat (.D c) else [.M fun _ => kpar c ^ e]
  | .fn g => [.M g]

/-- The elementary operators of a summand. -/
noncomputable def word (kpar : Axis → ℂ) (coords : List Axis) (t : Term) : List Atom := t.flatMap (atomsOf kpar coords)

/-- One elementary operator applied to an expansion. -/
noncomputable def astep : Atom → List Hop → List Hop
  | .D c, l => mulBy (fun _ _ => -Complex.I) (differentiate c l)
  | .M g, l => mulBy (fun _ x => g x) l

/-- The expansion of a word. -/
noncomputable def expand (w : List Atom) : List Hop := w.foldr astep [(fun _ => 0, fun _ _ => 1)]

theorem foldr_replicate_D (c : Axis) (n : ℕ) (l : List Hop) :
    (List.replicate n (Atom.D c)).foldr astep l = (fun l => mulBy (fun _ _ => -Complex.I) (differentiate c l))^[n] l := by
  induction n with
  | zero => rfl
  | succ n ih => rw [List.replicate_succ, List.foldr_cons, ih, Function.iterate_succ_apply']; rfl

theorem discretizeSummand_eq (kpar : Axis → ℂ) (coords : List Axis) (t : Term) :
    discretizeSummand kpar coords t = expand (word kpar coords t) := by
  unfold discretizeSummand expand word
  induction t with
  | nil => rfl
  | cons f t ih =>
    rw [List.foldr_cons, ih, List.flatMap_cons, List.foldr_append]
    cases f with
    | mom c e =>
      simp only [applyFactor, atomsOf]
      split
      · rw [foldr_replicate_D]
      · rfl
    | fn g => rfl

/-- How many momenta along `c` there are. -/
def cnt (c : Axis) : List Atom → ℕ
  | [] => 0
  | .D c' :: w => (if c' = c then 1 else 0) + cnt c w
  | .M _ :: w => cnt c w

theorem cnt_append (c : Axis) (v w : List Atom) : cnt c (v ++ w) = cnt c v + cnt c w := by
  induction v with
  | nil => simp [cnt]
  | cons a v ih => cases a <;> simp [cnt, ih, add_assoc]

theorem cnt_replicate (c c' : Axis) (n : ℕ) : cnt c (List.replicate n (Atom.D c')) = if c' = c then n else 0 := by
  induction n with
  | zero => simp [cnt]
  | succ n ih => rw [List.replicate_succ]; simp only [cnt, ih]; split <;> omega

theorem cnt_word (kpar : Axis → ℂ) (coords : List Axis) (t : Term) (c : Axis) :
    cnt c (word kpar coords t) = if c ∈ coords then degree c t else 0 := by
  unfold word
  induction t with
  | nil => simp [cnt, degree]
  | cons f t ih =>
    rw [List.flatMap_cons, cnt_append, ih]
    cases f with
    | mom c' e =>
      simp only [atomsOf, degree]
      by_cases hc : c' = c
      · subst hc
        by_cases h : c' ∈ coords
        · simp [h, cnt_replicate]
        · simp [h, cnt]
      · by_cases h : c' ∈ coords <;> simp [h, cnt_replicate, hc, cnt]
    | fn g => simp [atomsOf, cnt, degree]

/-! ### Offsets -/

theorem mem_off_mulBy (g : Coeff) (l : List Hop) (o : Axis → ℤ) : o ∈ (mulBy g l).map Prod.fst ↔ o ∈ l.map Prod.fst := by
  unfold mulBy; rw [List.map_map]; rfl

/-- Parity and size of an offset fit to a number of central differences. -/
def Fits (n : ℕ) (o : ℤ) : Prop := -(n : ℤ) ≤ o ∧ o ≤ n ∧ (2 : ℤ) ∣ n - o

theorem mem_off_astep_D (c : Axis) (l : List Hop) (o : Axis → ℤ) :
    o ∈ (astep (.D c) l).map Prod.fst ↔ (fun i => if i = c then o i - 1 else o i) ∈ l.map Prod.fst ∨ (fun i => if i = c then o i + 1 else o i) ∈ l.map Prod.fst := by
  unfold astep differentiate
  simp only [mem_off_mulBy, List.map_append, List.mem_append]
  have key : ∀ s : ℤ, o ∈ (l.map (substShift c s)).map Prod.fst ↔ (fun i => if i = c then o i - s else o i) ∈ l.map Prod.fst := by
    intro s
    simp only [List.mem_map, List.map_map, Function.comp, substShift]
    constructor
    · rintro ⟨e, he, rfl⟩
      refine ⟨e, he, ?_⟩
      funext i; by_cases hi : i = c <;> simp [hi]
    · rintro ⟨e, he, h⟩
      refine ⟨e, he, ?_⟩
      funext i
      have := congrFun h i
      by_cases hi : i = c
      · simp only [hi, if_true] at this ⊢; omega
      · simp only [hi, if_false] at this ⊢; exact this
  rw [key 1, key (-1)]
  simp only [sub_neg_eq_add]

theorem mem_off_expand (w : List Atom) (o : Axis → ℤ) : o ∈ (expand w).map Prod.fst ↔ ∀ c, Fits (cnt c w) (o c) := by
  induction w generalizing o with
  | nil =>
    simp only [expand, List.foldr_nil, List.map_cons, List.map_nil, List.mem_singleton, cnt, Fits]
    constructor
    · rintro rfl c; simp
    · intro h; funext c; have := h c; simp at this; omega
  | cons a w ih =>
    have e : expand (a :: w) = astep a (expand w) := rfl
    rw [e]
    cases a with
    | M g => exact (mem_off_mulBy _ _ _).trans (ih o)
    | D c =>
      rw [mem_off_astep_D, ih, ih]
      simp only [cnt]
      constructor
      · rintro (h | h) i
        all_goals
          have := h i
          by_cases hi : i = c
          · subst hi; simp only [if_true, Fits] at this ⊢; push_cast; omega
          · have hi' : ¬ c = i := fun e => hi e.symm
            simp only [hi, hi', if_false, Fits] at this ⊢; push_cast; omega
      · intro h
        have hc := h c
        simp only [if_true, Fits] at hc
        by_cases h0 : 0 < o c
        · left; intro i
          have := h i
          by_cases hi : i = c
          · subst hi; simp only [if_true, Fits] at this ⊢; push_cast at this; omega
          · have hi' : ¬ c = i := fun e => hi e.symm
            simp only [hi, hi', if_false, Fits] at this ⊢; push_cast at this; omega
        · right; intro i
          have := h i
          by_cases hi : i = c
          · subst hi; simp only [if_true, Fits] at this ⊢; push_cast at this; omega
          · have hi' : ¬ c = i := fun e => hi e.symm
            simp only [hi, hi', if_false, Fits] at this ⊢; push_cast at this; omega

/-! ### gcd -/

theorem dvd_euclid (a b d : ℤ) : d ∣ euclid a b ↔ d ∣ a ∧ d ∣ b := by
  induction a, b using euclid.induct with
  | case1 b => rw [euclid]; simp
  | case2 a b h ih =>
    rw [euclid, if_neg h, ih]
    constructor
    · rintro ⟨h1, h2⟩
      refine ⟨h2, ?_⟩
      rw [Int.fmod_def] at h1
      exact (Int.dvd_iff_dvd_of_dvd_sub (by simpa using h1)).mpr (Dvd.dvd.mul_right h2 _)
    · rintro ⟨h1, h2⟩
      refine ⟨?_, h1⟩
      rw [Int.fmod_def]
      exact dvd_sub h2 (Dvd.dvd.mul_right h1 _)

theorem dvd_gcdRev (l : List ℤ) (d : ℤ) : d ∣ gcdRev l ↔ ∀ a ∈ l, d ∣ a := by
  induction l using gcdRev.induct with
  | case1 => simp [gcdRev]
  | case2 b => simp [gcdRev]
  | case3 b a rest ih =>
    rw [gcdRev, ih]
    simp only [List.mem_cons, forall_eq_or_imp, dvd_euclid]; tauto

theorem gcdRev_nonneg (l : List ℤ) : 0 ≤ gcdRev l := by
  induction l using gcdRev.induct with
  | case1 => simp [gcdRev]
  | case2 b => simp [gcdRev]
  | case3 b a rest ih => rw [gcdRev]; exact ih

theorem dvd_pyGcd (l : List ℤ) (d : ℤ) : d ∣ pyGcd l ↔ ∀ a ∈ l, d ∣ a := by
  unfold pyGcd
  split
  · simp
  · rw [dvd_gcdRev]; simp

theorem pyGcd_nonneg (l : List ℤ) (h : l.length ≠ 1) : 0 ≤ pyGcd l := by
  unfold pyGcd
  split
  · simp at h
  · exact gcdRev_nonneg _

theorem length_expand_ne_one (w : List Atom) (c : Axis) (h : cnt c w ≠ 0) : (expand w).length ≠ 1 := by
  have hpos : (expand w).length ≠ 1 := by
    intro h1
    obtain ⟨e, he⟩ := List.length_eq_one_iff.mp h1
    have a1 : (fun i => (cnt i w : ℤ)) ∈ (expand w).map Prod.fst := (mem_off_expand _ _).mpr fun i => by simp [Fits]
    have a2 : (fun i => -(cnt i w : ℤ)) ∈ (expand w).map Prod.fst := (mem_off_expand _ _).mpr fun i => by
      refine ⟨le_refl _, by omega, ?_⟩; omega
    rw [he] at a1 a2
    simp only [List.map_cons, List.map_nil, List.mem_singleton] at a1 a2
    have := congrFun (a1.trans a2.symm) c
    omega
  exact hpos

/-- The factor that `_extract_hoppings` finds. -/
theorem rescaleFactor_expand (coords : List Axis) (w : List Atom) (hw : ∀ c, c ∉ coords → cnt c w = 0) (c : Axis) :
    rescaleFactor coords (expand w) c = if cnt c w ≠ 0 ∧ Even (cnt c w) then 2 else 1 := by
  unfold rescaleFactor
  by_cases hc : c ∈ coords
  · rw [if_pos hc]
    by_cases h0 : cnt c w = 0
    · have : ¬ (cnt c w ≠ 0 ∧ Even (cnt c w)) := by simp [h0]
      rw [if_neg this]
      have h1 : pyGcd ((expand w).map fun e => e.1 c) = 0 := by
        have : (0 : ℤ) ∣ pyGcd ((expand w).map fun e => e.1 c) := by
          rw [dvd_pyGcd]
          intro a ha
          obtain ⟨e, he, rfl⟩ := List.mem_map.mp ha
          have := (mem_off_expand w e.1).mp (List.mem_map_of_mem he) c
          rw [h0] at this; simp only [Fits] at this
          have : e.1 c = 0 := by omega
          rw [this]
        simpa using this
      rw [h1]; simp
    · have hlen : ((expand w).map fun e => e.1 c).length ≠ 1 := by
        rw [List.length_map]; exact length_expand_ne_one w c h0
      have hnn := pyGcd_nonneg _ hlen
      set g := pyGcd ((expand w).map fun e => e.1 c) with hg
      have mem : ∀ o : Axis → ℤ, (∀ i, Fits (cnt i w) (o i)) → g ∣ o c := by
        intro o ho
        obtain ⟨e, he, h⟩ := List.mem_map.mp ((mem_off_expand w o).mpr ho)
        have := (dvd_pyGcd ((expand w).map fun e => e.1 c) g).mp (dvd_refl _) (e.1 c) (List.mem_map.mpr ⟨e, he, rfl⟩)
        rwa [h] at this
      have d1 : g ∣ (cnt c w : ℤ) := mem (fun i => cnt i w) fun i => by simp [Fits]
      have d2 : g ∣ (cnt c w : ℤ) - 2 := by
        have := mem (fun i => if i = c then (cnt i w : ℤ) - 2 else cnt i w) fun i => by
          by_cases hi : i = c
          · subst hi; simp only [if_true, Fits]; omega
          · simp only [hi, if_false, Fits]; omega
        simpa using this
      have d3 : g ∣ 2 := by have := dvd_sub d1 d2; simpa using this
      have hle : g ≤ 2 := Int.le_of_dvd (by norm_num) d3
      have hne : g ≠ 0 := by rintro h; rw [h] at d3; simp at d3
      rw [if_neg (by omega)]
      by_cases he : Even (cnt c w)
      · rw [if_pos ⟨h0, he⟩]
        have : (2 : ℤ) ∣ g := by
          rw [hg, dvd_pyGcd]
          intro a ha
          obtain ⟨e, hme, rfl⟩ := List.mem_map.mp ha
          have := (mem_off_expand w e.1).mp (List.mem_map_of_mem hme) c
          obtain ⟨k, hk⟩ := he
          simp only [Fits] at this; omega
        omega
      · rw [if_neg (by tauto)]
        rw [Nat.not_even_iff_odd] at he
        obtain ⟨k, hk⟩ := he
        by_contra h1
        have : g = 2 := by omega
        rw [this] at d1; omega
  · rw [if_neg hc]
    have h0 := hw c hc
    rw [if_neg (by simp [h0])]

/-! ### Action -/

/-- The action of an expansion on a wave function. -/
noncomputable def act (l : List Hop) (h : Pos) (ψ : Pos → ℂ) (x : Pos) : ℂ := (l.map fun e => e.2 h x * ψ fun c => x c + e.1 c * h c).sum

theorem act_mulBy (g : Coeff) (l : List Hop) (h : Pos) (ψ : Pos → ℂ) (x : Pos) : act (mulBy g l) h ψ x = g h x * act l h ψ x := by
  unfold act mulBy
  rw [List.map_map, ← List.sum_map_mul_left]
  congr 1; apply List.map_congr_left; intro e _; simp only [Function.comp]; ring

theorem act_append (l l' : List Hop) (h : Pos) (ψ : Pos → ℂ) (x : Pos) : act (l ++ l') h ψ x = act l h ψ x + act l' h ψ x := by
  simp [act]

theorem act_shift (c : Axis) (s : ℤ) (l : List Hop) (h : Pos) (ψ : Pos → ℂ) (x : Pos) :
    act (l.map (substShift c s)) h ψ x = act l h ψ (moved c s h x) := by
  unfold act
  rw [List.map_map]
  congr 1; apply List.map_congr_left; intro e _
  simp only [Function.comp, substShift]
  congr 2; funext i
  unfold moved
  by_cases hi : i = c
  · simp only [hi, if_true]; push_cast; ring
  · simp only [hi, if_false]

theorem moved_one (c : Axis) (h x : Pos) : moved c 1 h x = x + Pi.single c (h c) := by
  funext i; unfold moved
  by_cases hi : i = c
  · subst hi; simp
  · simp [hi]

theorem moved_neg_one (c : Axis) (h x : Pos) : moved c (-1) h x = x - Pi.single c (h c) := by
  funext i; unfold moved
  by_cases hi : i = c
  · subst hi; simp [sub_eq_add_neg]
  · simp [hi]

theorem act_astep_D (c : Axis) (l : List Hop) (h : Pos) (ψ : Pos → ℂ) (x : Pos) :
    act (astep (.D c) l) h ψ x = kDisc c (h c) (act l h ψ) x := by
  unfold astep differentiate kDisc
  simp only [act_mulBy, act_append, act_shift, moved_one, moved_neg_one]
  ring

/-- A word as an operator. -/
noncomputable def wordOp (h : Pos) : List Atom → (Pos → ℂ) → Pos → ℂ
  | [], ψ => ψ
  | .D c :: w, ψ => kDisc c (h c) (wordOp h w ψ)
  | .M g :: w, ψ => fun x => g x * wordOp h w ψ x

theorem act_expand (w : List Atom) (h : Pos) (ψ : Pos → ℂ) : act (expand w) h ψ = wordOp h w ψ := by
  induction w with
  | nil => funext x; simp [expand, act, wordOp]
  | cons a w ih =>
    have e : expand (a :: w) = astep a (expand w) := rfl
    funext x
    rw [e]
    cases a with
    | D c => rw [act_astep_D, ih]; rfl
    | M g => unfold astep; rw [act_mulBy, ih]; rfl

theorem wordOp_replicate (h : Pos) (c : Axis) (n : ℕ) (w : List Atom) (ψ : Pos → ℂ) :
    wordOp h (List.replicate n (.D c) ++ w) ψ = (kDisc c (h c))^[n] (wordOp h w ψ) := by
  induction n with
  | zero => rfl
  | succ n ih => rw [List.replicate_succ, List.cons_append, Function.iterate_succ_apply', ← ih]; rfl

theorem wordOp_word (kpar : Axis → ℂ) (coords : List Axis) (h : Pos) (t : Term) (ψ : Pos → ℂ) :
    wordOp h (word kpar coords t) ψ = discOp kpar coords h t ψ := by
  unfold word
  induction t with
  | nil => rfl
  | cons f t ih =>
    rw [List.flatMap_cons]
    cases f with
    | mom c e =>
      simp only [atomsOf, discOp]
      split
      · rw [wordOp_replicate, ih]
      · simp only [List.singleton_append, wordOp, ih]
    | fn g => simp only [atomsOf, discOp, List.singleton_append, wordOp, ih]

/-- Only the spacings of the coordinates whose momenta occur matter. -/
theorem wordOp_congr (h h' : Pos) (w : List Atom) (ψ : Pos → ℂ) (hh : ∀ c, cnt c w ≠ 0 → h c = h' c) : wordOp h w ψ = wordOp h' w ψ := by
  induction w with
  | nil => rfl
  | cons a w ih =>
    cases a with
    | D c =>
      have h1 : h c = h' c := hh c (by simp [cnt])
      have h2 := ih fun i hi => hh i (by simp only [cnt]; omega)
      simp only [wordOp, h1, h2]
    | M g =>
      have h2 := ih fun i hi => hh i (by simpa only [cnt] using hi)
      simp only [wordOp, h2]

end Kwant.Continuum
