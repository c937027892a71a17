import Verif.Continuum.Words

/-! Lemmas: the coefficient of every offset, and its behaviour under the formal adjoint. -/

set_option linter.unusedSectionVars false

namespace Kwant.Continuum

/-- The point `o` grid points away from `x`. -/
noncomputable def pt (h x : Pos) (o : Axis → ℤ) : Pos := fun c => x c + o c * h c

/-- The coefficient of `wf(x + o h)` in the expansion of a word. -/
noncomputable def kern (h : Pos) : List Atom → Pos → (Axis → ℤ) → ℂ
  | [], _, o => if o = 0 then 1 else 0
  | .D c :: w, x, o => -Complex.I * (1 / (2 * h c)) * (kern h w (x + Pi.single c (h c)) (o - Pi.single c 1) - kern h w (x - Pi.single c (h c)) (o + Pi.single c 1))
  | .M g :: w, x, o => g x * kern h w x o

/-- The sum of the coefficients of the summands with offset `o`. -/
noncomputable def coefAt (l : List Hop) (o : Axis → ℤ) (h x : Pos) : ℂ := (l.map fun e => if e.1 = o then e.2 h x else 0).sum

theorem coefAt_mulBy (g : Coeff) (l : List Hop) (o : Axis → ℤ) (h x : Pos) : coefAt (mulBy g l) o h x = g h x * coefAt l o h x := by
  unfold coefAt mulBy
  rw [List.map_map, ← List.sum_map_mul_left]
  congr 1; apply List.map_congr_left; intro e _; simp only [Function.comp]; split <;> simp

theorem coefAt_append (l l' : List Hop) (o : Axis → ℤ) (h x : Pos) : coefAt (l ++ l') o h x = coefAt l o h x + coefAt l' o h x := by
  simp [coefAt]

theorem coefAt_shift (c : Axis) (s : ℤ) (l : List Hop) (o : Axis → ℤ) (h x : Pos) :
    coefAt (l.map (substShift c s)) o h x = coefAt l (o - Pi.single c s) h (moved c s h x) := by
  unfold coefAt
  rw [List.map_map]
  congr 1; apply List.map_congr_left; intro e _
  simp only [Function.comp, substShift]
  have : ((fun i => if i = c then e.1 i + s else e.1 i) = o) ↔ e.1 = o - Pi.single c s := by
    constructor
    · rintro rfl; funext i
      by_cases hi : i = c
      · subst hi; simp
      · simp [hi]
    · rintro h; rw [h]; funext i
      by_cases hi : i = c
      · subst hi; simp
      · simp [hi]
  simp only [this]

theorem coefAt_expand (w : List Atom) (o : Axis → ℤ) (h x : Pos) : coefAt (expand w) o h x = kern h w x o := by
  induction w generalizing o x with
  | nil =>
    simp only [expand, List.foldr_nil, coefAt, List.map_cons, List.map_nil, List.sum_cons, List.sum_nil, add_zero, kern]
    have : ((fun _ => 0 : Axis → ℤ) = o) ↔ o = 0 := eq_comm
    simp only [this]
  | cons a w ih =>
    have e : expand (a :: w) = astep a (expand w) := rfl
    rw [e]
    cases a with
    | M g => unfold astep; rw [coefAt_mulBy, ih]; rfl
    | D c =>
      unfold astep differentiate kern
      simp only [coefAt_mulBy, coefAt_append, coefAt_shift, moved_one, moved_neg_one, ih]
      rw [show o - Pi.single c (-1) = o + Pi.single c 1 by rw [Pi.single_neg, sub_neg_eq_add]]
      ring

theorem pt_sub (h x : Pos) (o : Axis → ℤ) (c : Axis) : pt h (x + Pi.single c (h c)) (o - Pi.single c 1) = pt h x o := by
  funext i; unfold pt
  by_cases hi : i = c
  · subst hi; simp; ring
  · simp [hi]

theorem pt_add (h x : Pos) (o : Axis → ℤ) (c : Axis) : pt h (x - Pi.single c (h c)) (o + Pi.single c 1) = pt h x o := by
  funext i; unfold pt
  by_cases hi : i = c
  · subst hi; simp; ring
  · simp [hi]

theorem pt_zero (h x : Pos) : pt h x 0 = x := by funext i; simp [pt]

theorem kern_append_M (h : Pos) (w : List Atom) (g : Pos → ℂ) (x : Pos) (o : Axis → ℤ) :
    kern h (w ++ [.M g]) x o = kern h w x o * g (pt h x o) := by
  induction w generalizing x o with
  | nil =>
    simp only [List.nil_append, kern]
    by_cases ho : o = 0
    · subst ho; simp [pt_zero]
    · simp [ho]
  | cons a w ih =>
    cases a with
    | M g' => simp only [List.cons_append, kern, ih]; ring
    | D c => simp only [List.cons_append, kern, ih, pt_sub, pt_add]; ring

theorem kern_append_D (h : Pos) (w : List Atom) (c : Axis) (x : Pos) (o : Axis → ℤ) :
    kern h (w ++ [.D c]) x o = -Complex.I * (1 / (2 * h c)) * (kern h w x (o - Pi.single c 1) - kern h w x (o + Pi.single c 1)) := by
  induction w generalizing x o with
  | nil => simp only [List.nil_append, kern]
  | cons a w ih =>
    cases a with
    | M g' => simp only [List.cons_append, kern, ih]; ring
    | D c' =>
      simp only [List.cons_append, kern, ih]
      rw [show o - Pi.single c 1 - Pi.single c' 1 = o - Pi.single c' 1 - Pi.single c 1 by abel,
        show o - Pi.single c 1 + Pi.single c' 1 = o + Pi.single c' 1 - Pi.single c 1 by abel,
        show o + Pi.single c 1 - Pi.single c' 1 = o - Pi.single c' 1 + Pi.single c 1 by abel,
        show o + Pi.single c 1 + Pi.single c' 1 = o + Pi.single c' 1 + Pi.single c 1 by abel]
      ring

/-- The adjoint of an elementary operator. -/
noncomputable def adjAtom : Atom → Atom
  | .D c => .D c
  | .M g => .M fun x => star (g x)

/-- The adjoint of a word. -/
noncomputable def adjWord (w : List Atom) : List Atom := w.reverse.map adjAtom

theorem adjWord_cons (a : Atom) (w : List Atom) : adjWord (a :: w) = adjWord w ++ [adjAtom a] := by simp [adjWord]

theorem pt_neg (h x : Pos) (o : Axis → ℤ) : pt h (pt h x o) (-o) = x := by
  funext i; simp [pt]

theorem star_kfac (r : ℝ) : star (-Complex.I * (1 / (2 * (r : ℂ)))) = - (-Complex.I * (1 / (2 * (r : ℂ)))) := by
  have h2 : star (2 * (r : ℂ)) = 2 * (r : ℂ) := by
    rw [star_mul', show star (2 : ℂ) = 2 from by simp, Complex.star_def, Complex.conj_ofReal]
  rw [star_mul', star_neg, star_div₀, star_one, h2]
  simp [Complex.star_def]

theorem kern_adj (h : Pos) (w : List Atom) (x : Pos) (o : Axis → ℤ) : kern h (adjWord w) (pt h x o) (-o) = star (kern h w x o) := by
  induction w generalizing x o with
  | nil =>
    simp only [adjWord, List.reverse_nil, List.map_nil, kern, neg_eq_zero]
    split <;> simp
  | cons a w ih =>
    rw [adjWord_cons]
    cases a with
    | M g =>
      simp only [adjAtom, kern, kern_append_M, ih, pt_neg, star_mul']; ring
    | D c =>
      simp only [adjAtom, kern, kern_append_D]
      have h1 := ih (x - Pi.single c (h c)) (o + Pi.single c 1)
      have h2 := ih (x + Pi.single c (h c)) (o - Pi.single c 1)
      rw [pt_add] at h1; rw [pt_sub] at h2
      rw [show -o - Pi.single c 1 = -(o + Pi.single c 1) by abel, show -o + Pi.single c 1 = -(o - Pi.single c 1) by abel, h1, h2,
        star_mul', star_kfac, star_sub]
      ring

/-! ### Operators that commute -/

theorem kern_congr_cons (h : Pos) (a : Atom) (v w : List Atom) (hv : kern h v = kern h w) : kern h (a :: v) = kern h (a :: w) := by
  funext x o
  cases a <;> simp only [kern, hv]

theorem kern_congr_append (h : Pos) (u v w : List Atom) (hv : kern h v = kern h w) : kern h (u ++ v) = kern h (u ++ w) := by
  induction u with
  | nil => exact hv
  | cons a u ih => exact kern_congr_cons h a _ _ ih

theorem kern_swap_D (h : Pos) (c c' : Axis) (w : List Atom) : kern h (.D c :: .D c' :: w) = kern h (.D c' :: .D c :: w) := by
  funext x o
  simp only [kern]
  rw [show x + Pi.single c (h c) + Pi.single c' (h c') = x + Pi.single c' (h c') + Pi.single c (h c) by abel,
    show x + Pi.single c (h c) - Pi.single c' (h c') = x - Pi.single c' (h c') + Pi.single c (h c) by abel,
    show x - Pi.single c (h c) + Pi.single c' (h c') = x + Pi.single c' (h c') - Pi.single c (h c) by abel,
    show x - Pi.single c (h c) - Pi.single c' (h c') = x - Pi.single c' (h c') - Pi.single c (h c) by abel,
    show o - Pi.single c 1 - Pi.single c' 1 = o - Pi.single c' 1 - Pi.single c 1 by abel,
    show o - Pi.single c 1 + Pi.single c' 1 = o + Pi.single c' 1 - Pi.single c 1 by abel,
    show o + Pi.single c 1 - Pi.single c' 1 = o - Pi.single c' 1 + Pi.single c 1 by abel,
    show o + Pi.single c 1 + Pi.single c' 1 = o + Pi.single c' 1 + Pi.single c 1 by abel]
  ring

theorem kern_swap_const (h : Pos) (c : Axis) (a : ℂ) (w : List Atom) :
    kern h (.M (fun _ => a) :: .D c :: w) = kern h (.D c :: .M (fun _ => a) :: w) := by
  funext x o; simp only [kern]; ring

theorem kern_swap_M (h : Pos) (g g' : Pos → ℂ) (w : List Atom) : kern h (.M g :: .M g' :: w) = kern h (.M g' :: .M g :: w) := by
  funext x o; simp only [kern]; ring

theorem kern_mul_M (h : Pos) (g g' : Pos → ℂ) (w : List Atom) : kern h (.M g :: .M g' :: w) = kern h (.M (fun x => g x * g' x) :: w) := by
  funext x o; simp only [kern]; ring

theorem kern_swap_rep_const (h : Pos) (c : Axis) (a : ℂ) (n : ℕ) (w : List Atom) :
    kern h (.M (fun _ => a) :: (List.replicate n (.D c) ++ w)) = kern h (List.replicate n (.D c) ++ .M (fun _ => a) :: w) := by
  induction n with
  | zero => rfl
  | succ n ih =>
    rw [List.replicate_succ, List.cons_append, List.cons_append, kern_swap_const]
    exact kern_congr_cons h _ _ _ ih

theorem kern_swap_D_rep (h : Pos) (c c' : Axis) (n : ℕ) (w : List Atom) :
    kern h (.D c :: (List.replicate n (.D c') ++ w)) = kern h (List.replicate n (.D c') ++ .D c :: w) := by
  induction n with
  | zero => rfl
  | succ n ih =>
    rw [List.replicate_succ, List.cons_append, List.cons_append, kern_swap_D]
    exact kern_congr_cons h _ _ _ ih

theorem kern_swap_rep (h : Pos) (c c' : Axis) (n n' : ℕ) (w : List Atom) :
    kern h (List.replicate n (.D c) ++ (List.replicate n' (.D c') ++ w)) = kern h (List.replicate n' (.D c') ++ (List.replicate n (.D c) ++ w)) := by
  induction n with
  | zero => rfl
  | succ n ih =>
    rw [List.replicate_succ, List.cons_append, List.cons_append]
    rw [kern_congr_cons h _ _ _ ih, kern_swap_D_rep]

end Kwant.Continuum
