import Verif.Continuum.Kernel
import Mathlib.Data.Matrix.Mul

/-! C128, C129: what `_discretize_expression` and the dict of all hoppings mean. -/

set_option linter.unusedSectionVars false

namespace Kwant.Continuum

/-! ### Keys and grid points -/

theorem gridAt_map (coords : List Axis) (hnd : coords.Nodup) (o : Axis → ℤ) (a x : Pos) :
    gridAt coords (coords.map o) a x = fun c => x c + (if c ∈ coords then (o c : ℝ) else 0) * a c := by
  unfold gridAt
  funext c
  rw [Pi.add_apply]
  congr 1
  induction coords with
  | nil => simp
  | cons d l ih =>
    rw [List.nodup_cons] at hnd
    simp only [List.map_cons, List.zip_cons_cons, List.sum_cons, Pi.add_apply, List.mem_cons]
    rw [ih hnd.2]
    by_cases hc : c = d
    · subst hc; simp [hnd.1]
    · simp [hc]

theorem fits_abs {n : ℕ} {o : ℤ} : Fits n o ↔ |o| ≤ n ∧ (2 : ℤ) ∣ n - o := by
  unfold Fits; rw [abs_le]; tauto

/-- The rescaling factor of a word. -/
def fac (w : List Atom) (c : Axis) : ℤ := if cnt c w ≠ 0 ∧ Even (cnt c w) then 2 else 1

theorem fac_pos (w : List Atom) (c : Axis) : 0 < fac w c := by unfold fac; split <;> norm_num

theorem fac_dvd (w : List Atom) (o : Axis → ℤ) (ho : ∀ c, Fits (cnt c w) (o c)) (c : Axis) : fac w c ∣ o c := by
  unfold fac
  split
  · next h =>
    have := ho c
    obtain ⟨k, hk⟩ := h.2
    unfold Fits at this; omega
  · exact one_dvd _

/-- The spacings after the rescaling. -/
noncomputable def facSpacing (w : List Atom) (a : Pos) : Pos := fun c => a c / fac w c

theorem rescaled_expand (coords : List Axis) (w : List Atom) (hw : ∀ c, c ∉ coords → cnt c w = 0) :
    rescaled coords (expand w) = (expand w).map fun e => (fun c => (e.1 c).fdiv (fac w c), fun h x => e.2 (facSpacing w h) x) := by
  unfold rescaled
  have : ∀ c, rescaleFactor coords (expand w) c = fac w c := rescaleFactor_expand coords w hw
  simp only [this]; rfl

theorem fdiv_mul_cancel' {d o : ℤ} (hd : 0 < d) (h : d ∣ o) : o.fdiv d * d = o := by
  obtain ⟨q, rfl⟩ := h
  rw [Int.mul_fdiv_cancel_left _ hd.ne', mul_comm]

/-- The position of a tuple of offsets: zero for coordinates that are not discretized. -/
def offAt (coords : List Axis) (k : List ℤ) (c : Axis) : ℤ := ((coords.zip k).find? fun p => p.1 = c).elim 0 Prod.snd

theorem offAt_map (coords : List Axis) (o : Axis → ℤ) (c : Axis) : offAt coords (coords.map o) c = if c ∈ coords then o c else 0 := by
  unfold offAt
  induction coords with
  | nil => simp
  | cons d l ih =>
    simp only [List.map_cons, List.zip_cons_cons, List.find?_cons]
    by_cases hc : d = c
    · subst hc; simp
    · have : ¬ c = d := fun e => hc e.symm
      simp [hc, this, ih]

theorem map_offAt (coords : List Axis) (hnd : coords.Nodup) (k : List ℤ) (hk : k.length = coords.length) : coords.map (offAt coords k) = k := by
  induction coords generalizing k with
  | nil => simp at hk; simp [hk]
  | cons d l ih =>
    cases k with
    | nil => simp at hk
    | cons z k =>
      rw [List.nodup_cons] at hnd
      simp only [List.map_cons, List.cons.injEq]
      constructor
      · simp [offAt]
      · conv_rhs => rw [← ih hnd.2 k (by simpa using hk)]
        apply List.map_congr_left
        intro c hc
        have h1 : ¬ d = c := fun e => hnd.1 (e ▸ hc)
        simp only [offAt, List.zip_cons_cons, List.find?_cons, h1, decide_false]

/-- The offset in the expansion that ends up under the key `k`. -/
def unscaled (coords : List Axis) (w : List Atom) (k : List ℤ) : Axis → ℤ := fun c => offAt coords k c * fac w c

theorem key_iff (coords : List Axis) (hnd : coords.Nodup) (w : List Atom) (hw : ∀ c, c ∉ coords → cnt c w = 0) (k : List ℤ)
    (hk : k.length = coords.length) (o : Axis → ℤ) (ho : ∀ c, Fits (cnt c w) (o c)) :
    coords.map (fun c => (o c).fdiv (fac w c)) = k ↔ o = unscaled coords w k := by
  constructor
  · rintro rfl
    funext c
    unfold unscaled
    rw [offAt_map]
    by_cases hc : c ∈ coords
    · rw [if_pos hc, fdiv_mul_cancel' (fac_pos w c) (fac_dvd w o ho c)]
    · have := ho c; rw [hw c hc] at this
      rw [if_neg hc, zero_mul]; unfold Fits at this; omega
  · rintro rfl
    have : ∀ c, (unscaled coords w k c).fdiv (fac w c) = offAt coords k c := fun c => by
      unfold unscaled; rw [Int.mul_fdiv_cancel _ (fac_pos w c).ne']
    simp only [this]
    exact map_offAt coords hnd k hk

/-- What `_extract_hoppings` returns: its keys, its action and its coefficients. -/
theorem extract_spec (coords : List Axis) (hnd : coords.Nodup) (w : List Atom) (hw : ∀ c, c ∉ coords → cnt c w = 0) :
    (∀ k, k ∈ (extractHoppings coords (expand w)).map Prod.fst ↔
      ∃ o : Axis → ℤ, k = coords.map o ∧ ∀ c ∈ coords, if Even (cnt c w) then 2 * |o c| ≤ cnt c w else |o c| ≤ cnt c w ∧ Odd (o c)) ∧
    (∀ (a x : Pos) (ψ : Pos → ℂ), ((extractHoppings coords (expand w)).map fun p => p.2 a x * ψ (gridAt coords p.1 a x)).sum = wordOp (facSpacing w a) w ψ x) ∧
    (∀ (a x : Pos) (k : List ℤ), k.length = coords.length →
      ((extractHoppings coords (expand w)).map fun p => if p.1 = k then p.2 a x else 0).sum = kern (facSpacing w a) w x (unscaled coords w k)) := by
  unfold extractHoppings
  rw [rescaled_expand coords w hw]
  obtain ⟨-, h2, h3⟩ := foldl_addTo (M := ℂ) ((expand w).map fun e => ((fun c => (e.1 c).fdiv (fac w c), fun h x => e.2 (facSpacing w h) x) : Hop))
    (fun e => coords.map e.1) (fun e => e.2) [] (by simp)
  have memw : ∀ e ∈ expand w, ∀ c, Fits (cnt c w) (e.1 c) := fun e he => (mem_off_expand w e.1).mp (List.mem_map_of_mem he)
  refine ⟨?_, ?_, ?_⟩
  · intro k
    rw [h2]
    simp only [List.map_nil, List.not_mem_nil, false_or, List.map_map, Function.comp, List.mem_map]
    constructor
    · rintro ⟨e, he, rfl⟩
      refine ⟨_, rfl, ?_⟩
      intro c hc
      have hf := memw e he c
      have hd := fdiv_mul_cancel' (fac_pos w c) (fac_dvd w e.1 (memw e he) c)
      revert hd; generalize (e.1 c).fdiv (fac w c) = q; intro hd
      rw [fits_abs] at hf
      rw [← hd, abs_mul, abs_of_pos (fac_pos w c)] at hf
      split
      · next hev =>
        unfold fac at hf
        split at hf
        · omega
        · next h => have : cnt c w = 0 := by by_contra h0; exact h ⟨h0, hev⟩
                    rw [this] at hf ⊢; simp at hf; rw [hf.1]; simp
      · next hev =>
        unfold fac at hf
        rw [if_neg (by tauto)] at hf
        rw [Nat.not_even_iff_odd] at hev
        obtain ⟨z, hz⟩ := hev
        refine ⟨by simpa using hf.1, ?_⟩
        rw [Int.odd_iff]; omega
    · rintro ⟨o, rfl, ho⟩
      have hmem : (fun c => if c ∈ coords then o c * fac w c else 0) ∈ (expand w).map Prod.fst := by
        rw [mem_off_expand]
        intro c
        by_cases hc : c ∈ coords
        · simp only [hc, if_true]
          have := ho c hc
          rw [fits_abs, abs_mul, abs_of_pos (fac_pos w c)]
          unfold fac
          split at this
          · next hev =>
            by_cases h0 : cnt c w = 0
            · rw [h0] at this ⊢
              have hz : o c = 0 := by
                have := abs_nonneg (o c); rw [← abs_eq_zero]; omega
              simp [hz]
            · rw [if_pos ⟨h0, hev⟩]
              obtain ⟨z, hz⟩ := hev
              omega
          · next hev =>
            rw [if_neg (by tauto)]
            rw [Nat.not_even_iff_odd] at hev
            obtain ⟨z, hz⟩ := hev
            obtain ⟨h1, ⟨y, hy⟩⟩ := this
            refine ⟨by simpa using h1, ?_⟩
            omega
        · simp [hc, hw c hc, Fits]
      obtain ⟨e, he, heq⟩ := List.mem_map.mp hmem
      refine ⟨e, he, ?_⟩
      apply List.map_congr_left
      intro c hc
      have := congrFun heq c
      simp only [hc, if_true] at this
      rw [this, Int.mul_fdiv_cancel _ (fac_pos w c).ne']
  · intro a x ψ
    have := h3 (fun k => { toFun := fun v => v a x * ψ (gridAt coords k a x), map_zero' := by simp, map_add' := by intros; simp [add_mul] })
    simp only [AddMonoidHom.coe_mk, ZeroHom.coe_mk, List.map_nil, List.sum_nil, zero_add] at this
    rw [this, ← act_expand, List.map_map]
    unfold act
    congr 1
    apply List.map_congr_left
    intro e he
    simp only [Function.comp]
    congr 2
    rw [gridAt_map coords hnd]
    funext c
    have hf := fdiv_mul_cancel' (fac_pos w c) (fac_dvd w e.1 (memw e he) c)
    have hp : (fac w c : ℝ) ≠ 0 := by exact_mod_cast (fac_pos w c).ne'
    by_cases hc : c ∈ coords
    · rw [if_pos hc]
      unfold facSpacing
      conv_rhs => rw [← hf]
      push_cast
      field_simp
    · have h0 := memw e he c; rw [hw c hc] at h0
      have : e.1 c = 0 := by unfold Fits at h0; omega
      rw [if_neg hc, this]; simp
  · intro a x k hk
    have := h3 (fun k' => { toFun := fun v => if k' = k then v a x else 0, map_zero' := by simp, map_add' := by intro v v'; split <;> simp })
    simp only [AddMonoidHom.coe_mk, ZeroHom.coe_mk, List.map_nil, List.sum_nil, zero_add] at this
    rw [this, ← coefAt_expand, List.map_map]
    unfold coefAt
    congr 1
    apply List.map_congr_left
    intro e he
    simp only [Function.comp]
    rw [if_congr (key_iff coords hnd w hw k hk e.1 (memw e he)) rfl rfl]

theorem word_cnt_zero (kpar : Axis → ℂ) (coords : List Axis) (t : Term) (c : Axis) (hc : c ∉ coords) : cnt c (word kpar coords t) = 0 := by
  rw [cnt_word, if_neg hc]

theorem step_op (kpar : Axis → ℂ) (coords : List Axis) (t : Term) (a : Pos) (ψ : Pos → ℂ) :
    wordOp (facSpacing (word kpar coords t) a) (word kpar coords t) ψ = discOp kpar coords (stepOf t a) t ψ := by
  rw [← wordOp_word]
  apply wordOp_congr
  intro c hc
  have h1 := cnt_word kpar coords t c
  unfold facSpacing stepOf fac
  by_cases hm : c ∈ coords
  · rw [if_pos hm] at h1
    rw [h1] at hc ⊢
    by_cases he : Even (degree c t)
    · simp [hc, he]
    · simp [he]
  · rw [if_neg hm] at h1; exact absurd h1 hc

theorem word_no_mom (kpar : Axis → ℂ) (coords : List Axis) (t : Term) (ht : t.any Factor.isMom = false) (x : Pos) :
    (∀ (h : Pos) (ψ : Pos → ℂ), wordOp h (word kpar coords t) ψ x = (t.map fun f => f.value kpar x).prod * ψ x) ∧
    (∀ (h : Pos) (o : Axis → ℤ), kern h (word kpar coords t) x o = if o = 0 then (t.map fun f => f.value kpar x).prod else 0) := by
  induction t with
  | nil => simp [word, wordOp, kern]
  | cons f t ih =>
    cases f with
    | mom c e => simp [Factor.isMom] at ht
    | fn g =>
      have hh := ih (by simpa [Factor.isMom] using ht)
      have e : word kpar coords (.fn g :: t) = .M g :: word kpar coords t := by simp [word, atomsOf]
      rw [e]
      constructor
      · intro h ψ; simp only [wordOp, hh.1, List.map_cons, List.prod_cons, Factor.value]; ring
      · intro h o; simp only [kern, hh.2, List.map_cons, List.prod_cons, Factor.value]; split <;> simp

theorem any_false {e : Expr} (h : ¬ e.any (fun t => t.any Factor.isMom) = true) : ∀ t ∈ e, t.any Factor.isMom = false := by
  intro t ht
  by_contra hc
  exact h (List.any_eq_true.mpr ⟨t, ht, by simpa using hc⟩)

theorem no_mom_degree {t : Term} (ht : t.any Factor.isMom = false) (c : Axis) : degree c t = 0 := by
  induction t with
  | nil => rfl
  | cons f t ih =>
    cases f with
    | mom c e => simp [Factor.isMom] at ht
    | fn g => simp only [degree]; exact ih (by simpa [Factor.isMom] using ht)

/-- The value under the key `k` that comes from the summand `t`. -/
noncomputable def termVal (kpar : Axis → ℂ) (coords : List Axis) (t : Term) (a x : Pos) (k : List ℤ) : ℂ :=
  kern (facSpacing (word kpar coords t) a) (word kpar coords t) x (unscaled coords (word kpar coords t) k)

theorem expression_merge (kpar : Axis → ℂ) (coords : List Axis) (e : Expr) :
    let d := e.foldl (fun d t => (extractHoppings coords (discretizeSummand kpar coords t)).foldl (fun d p => addTo d p.1 p.2) d) ([] : List (List ℤ × Coeff))
    (d.map Prod.fst).Nodup ∧ (∀ k, k ∈ d.map Prod.fst ↔ ∃ t ∈ e, k ∈ (extractHoppings coords (expand (word kpar coords t))).map Prod.fst) ∧
    ∀ F : List ℤ → Coeff →+ ℂ, (d.map fun p => F p.1 p.2).sum = (e.map fun t => ((extractHoppings coords (expand (word kpar coords t))).map fun p => F p.1 p.2).sum).sum := by
  intro d
  obtain ⟨h1, h2, h3⟩ := foldl_merge (M := ℂ) e (fun t => extractHoppings coords (discretizeSummand kpar coords t)) (fun _ v => v) [] (by simp)
  simp only [discretizeSummand_eq] at h1 h2 h3
  simp only [d, discretizeSummand_eq]
  refine ⟨h1, ?_, ?_⟩
  · intro k; rw [h2]; simp
  · intro F; rw [h3]; simp

/-- `_discretize_expression`: nodup keys, action, coefficients. -/
theorem expression_spec (kpar : Axis → ℂ) (coords : List Axis) (hnd : coords.Nodup) (e : Expr) :
    ((discretizeExpression kpar coords e).map Prod.fst).Nodup ∧
    (∀ (a x : Pos) (ψ : Pos → ℂ), ((discretizeExpression kpar coords e).map fun p => p.2 a x * ψ (gridAt coords p.1 a x)).sum =
      (e.map fun t => discOp kpar coords (stepOf t a) t ψ x).sum) ∧
    (∀ (a x : Pos) (k : List ℤ), k.length = coords.length →
      ((discretizeExpression kpar coords e).map fun p => if p.1 = k then p.2 a x else 0).sum = (e.map fun t => termVal kpar coords t a x k).sum) := by
  unfold discretizeExpression
  split
  · obtain ⟨h1, -, h3⟩ := expression_merge kpar coords e
    refine ⟨h1, ?_, ?_⟩
    · intro a x ψ
      have := h3 (fun k => { toFun := fun v => v a x * ψ (gridAt coords k a x), map_zero' := by simp, map_add' := by intros; simp [add_mul] })
      simp only [AddMonoidHom.coe_mk, ZeroHom.coe_mk] at this
      rw [this]
      congr 1; apply List.map_congr_left; intro t _
      rw [(extract_spec coords hnd _ (word_cnt_zero kpar coords t)).2.1, step_op]
    · intro a x k hk
      have := h3 (fun k' => { toFun := fun v => if k' = k then v a x else 0, map_zero' := by simp, map_add' := by intro v v'; split <;> simp })
      simp only [AddMonoidHom.coe_mk, ZeroHom.coe_mk] at this
      rw [this]
      congr 1; apply List.map_congr_left; intro t _
      rw [(extract_spec coords hnd _ (word_cnt_zero kpar coords t)).2.2 a x k hk]; rfl
  · next hm =>
    have hm' := any_false hm
    refine ⟨by simp, ?_, ?_⟩
    · intro a x ψ
      simp only [List.map_cons, List.map_nil, List.sum_cons, List.sum_nil, add_zero]
      rw [gridAt_map coords hnd (fun _ => 0), ← List.sum_map_mul_right]
      congr 1; apply List.map_congr_left; intro t ht
      rw [← wordOp_word, (word_no_mom kpar coords t (hm' t ht) x).1]
      simp
    · intro a x k hk
      simp only [List.map_cons, List.map_nil, List.sum_cons, List.sum_nil, add_zero]
      have key : ∀ t ∈ e, termVal kpar coords t a x k = if coords.map (fun _ => (0 : ℤ)) = k then (t.map fun f => f.value kpar x).prod else 0 := by
        intro t ht
        unfold termVal
        rw [(word_no_mom kpar coords t (hm' t ht) x).2]
        have h0 : ∀ c, cnt c (word kpar coords t) = 0 := fun c => by rw [cnt_word, no_mom_degree (hm' t ht)]; simp
        have hk0 := key_iff coords hnd (word kpar coords t) (fun c _ => h0 c) k hk 0 (fun c => by rw [h0]; simp [Fits])
        have hz : coords.map (fun c => ((0 : Axis → ℤ) c).fdiv (fac (word kpar coords t) c)) = coords.map fun _ => (0 : ℤ) := by
          apply List.map_congr_left; intro c _; simp
        rw [hz] at hk0
        rw [if_congr (eq_comm.trans hk0.symm) rfl rfl]
      split
      · next h =>
        congr 1; apply List.map_congr_left; intro t ht; rw [key t ht, if_pos h]
      · next h =>
        symm; apply List.sum_eq_zero
        intro z hz; obtain ⟨t, ht, rfl⟩ := List.mem_map.mp hz
        rw [key t ht, if_neg h]

/-- C129.  The offsets of the hoppings of an expression with momenta: a summand in which `k_c` occurs an even number `n` of times has all the offsets from `-n/2` to `n/2` along `c`,
and one in which it occurs an odd number `n` of times the odd offsets from `-n` to `n`; all combinations for different coordinates occur, and nothing else. -/
theorem discretize_offsets (kpar : Axis → ℂ) (coords : List Axis) (hnd : coords.Nodup) (e : Expr) (hm : e.any (fun t => t.any Factor.isMom) = true) (k : List ℤ) :
    k ∈ (discretizeExpression kpar coords e).map Prod.fst ↔
      ∃ t ∈ e, ∃ o : Axis → ℤ, k = coords.map o ∧
        ∀ c ∈ coords, if Even (degree c t) then 2 * |o c| ≤ degree c t else |o c| ≤ degree c t ∧ Odd (o c) := by
  unfold discretizeExpression
  rw [if_pos hm]
  obtain ⟨-, h2, -⟩ := expression_merge kpar coords e
  rw [h2]
  apply exists_congr; intro t
  apply and_congr_right; intro _
  rw [(extract_spec coords hnd _ (word_cnt_zero kpar coords t)).1]
  apply exists_congr; intro o
  apply and_congr_right; intro _
  apply forall_congr'; intro c
  apply imp_congr_right; intro hc
  rw [cnt_word, if_pos hc]

/-- C129, for an expression without momenta: only an onsite term, the value of the expression. -/
theorem discretize_onsite (kpar : Axis → ℂ) (coords : List Axis) (e : Expr) (hm : ∀ t ∈ e, ∀ c i, Factor.mom c i ∉ t) :
    ∃ v, discretizeExpression kpar coords e = [(coords.map fun _ => 0, v)] ∧ ∀ a x, v a x = (e.map fun t => (t.map fun f => f.value kpar x).prod).sum := by
  refine ⟨_, ?_, fun a x => rfl⟩
  unfold discretizeExpression
  rw [if_neg]
  rw [Bool.not_eq_true, List.any_eq_false]
  intro t ht
  rw [Bool.not_eq_true, List.any_eq_false]
  intro f hf
  cases f with
  | mom c i => exact absurd hf (hm t ht c i)
  | fn g => simp [Factor.isMom]

end Kwant.Continuum
