import Verif.Continuum.LandauThm

/-! C138, C139: the system of `discretize_landau` as an operator. -/

set_option linter.unusedSectionVars false

namespace Kwant.Continuum
open Matrix

variable {m : ℕ}

/-! ### Transposition in the normal direction -/

theorem kern_rev (h : Pos) (w : List Atom) (x : Pos) (o : Axis → ℤ) :
    kern h w.reverse (pt h x o) (-o) = (-1) ^ (cnt 0 w + cnt 1 w + cnt 2 w) * kern h w x o := by
  induction w generalizing x o with
  | nil =>
    simp only [List.reverse_nil, kern, neg_eq_zero, cnt]
    split <;> simp
  | cons a w ih =>
    rw [List.reverse_cons]
    cases a with
    | M g => simp only [kern, kern_append_M, ih, pt_neg, cnt]; ring
    | D c =>
      simp only [kern, kern_append_D]
      have h1 := ih (x - Pi.single c (h c)) (o + Pi.single c 1)
      have h2 := ih (x + Pi.single c (h c)) (o - Pi.single c 1)
      rw [pt_add] at h1; rw [pt_sub] at h2
      rw [show -o - Pi.single c 1 = -(o + Pi.single c 1) by abel, show -o + Pi.single c 1 = -(o - Pi.single c 1) by abel, h1, h2]
      have hc : cnt 0 (.D c :: w) + cnt 1 (.D c :: w) + cnt 2 (.D c :: w) = cnt 0 w + cnt 1 w + cnt 2 w + 1 := by
        simp only [cnt]
        fin_cases c <;> simp <;> omega
      rw [hc, pow_succ]
      ring

theorem word_append (kpar : Axis → ℂ) (coords : List Axis) (s t : Term) : word kpar coords (s ++ t) = word kpar coords s ++ word kpar coords t := by simp [word]

theorem word_reverse (kpar : Axis → ℂ) (coords : List Axis) (t : Term) : word kpar coords t.reverse = (word kpar coords t).reverse := by
  induction t with
  | nil => rfl
  | cons f t ih =>
    rw [List.reverse_cons, word_append, ih, word_cons kpar coords f t, List.reverse_append]
    congr 1
    cases f with
    | mom c e =>
      simp only [word, List.flatMap_cons, List.flatMap_nil, List.append_nil, atomsOf]
      split <;> simp
    | fn g => rfl

theorem cnt_reverse (c : Axis) (w : List Atom) : cnt c w.reverse = cnt c w := by
  induction w with
  | nil => rfl
  | cons a w ih =>
    rw [List.reverse_cons, cnt_append, ih]
    cases a <;> simp [cnt, add_comm]

theorem degree_reverse (c : Axis) (t : Term) : degree c t.reverse = degree c t := by
  induction t with
  | nil => rfl
  | cons f t ih =>
    rw [List.reverse_cons, degree_append, ih]
    cases f <;> simp [degree, add_comm]

theorem degree_trans (c c' : Axis) (t : Term) : degree c' (transTerm c t) = degree c' t := by
  unfold transTerm; simp only [degree]; exact degree_reverse c' t

/-- The coefficient of the opposite hopping is that of the transposed summand. -/
theorem termVal_trans (kpar : Axis → ℂ) (ax : Axis) (t : Term) (a x : Pos) (z : ℤ) :
    termVal kpar [ax] (transTerm ax t) a (gridAt [ax] [z] a x) [-z] = termVal kpar [ax] t a x [z] := by
  have hw : word kpar [ax] (transTerm ax t) = .M (fun _ => (-1) ^ degree ax t) :: (word kpar [ax] t).reverse := by
    unfold transTerm; rw [word_cons, word_reverse]; rfl
  have hc : ∀ c, cnt c (word kpar [ax] (transTerm ax t)) = cnt c (word kpar [ax] t) := fun c => by rw [hw]; simp only [cnt]; exact cnt_reverse c _
  have hf : fac (word kpar [ax] (transTerm ax t)) = fac (word kpar [ax] t) := by funext c; unfold fac; rw [hc c]
  rw [gridAt_pt [ax] (by simp) (word kpar [ax] t) [z] rfl]
  have hu : unscaled [ax] (word kpar [ax] (transTerm ax t)) [-z] = - unscaled [ax] (word kpar [ax] t) [z] := by
    funext c; unfold unscaled
    have := offAt_neg [ax] [z] c
    simp only [negKey, List.map_cons, List.map_nil] at this
    rw [this, hf]; simp
  have hs : facSpacing (word kpar [ax] (transTerm ax t)) a = facSpacing (word kpar [ax] t) a := by unfold facSpacing; rw [hf]
  unfold termVal
  rw [hu, hs, hw]
  simp only [kern]
  rw [kern_rev]
  have hd : cnt 0 (word kpar [ax] t) + cnt 1 (word kpar [ax] t) + cnt 2 (word kpar [ax] t) = degree ax t := by
    simp only [cnt_word, List.mem_singleton]
    fin_cases ax <;> simp
  rw [hd, ← mul_assoc, ← pow_add, ← two_mul, pow_mul]; simp

/-! ### Operators on the levels and in the normal direction commute -/

theorem kDisc_lin (c : Axis) (s : ℝ) (α β : ℂ) (f g : Pos → ℂ) : kDisc c s (fun y => α * f y + β * g y) = fun y => α * kDisc c s f y + β * kDisc c s g y := by
  funext x; unfold kDisc; ring

theorem kDisc_iter_lin (c : Axis) (s : ℝ) (n : ℕ) (α β : ℂ) (f g : Pos → ℂ) :
    (kDisc c s)^[n] (fun y => α * f y + β * g y) = fun y => α * (kDisc c s)^[n] f y + β * (kDisc c s)^[n] g y := by
  induction n with
  | zero => rfl
  | succ n ih => simp only [Function.iterate_succ_apply', ih, kDisc_lin]

theorem discOp_lin (kpar : Axis → ℂ) (coords : List Axis) (s : Pos) (t : Term) (α β : ℂ) (f g : Pos → ℂ) :
    discOp kpar coords s t (fun y => α * f y + β * g y) = fun y => α * discOp kpar coords s t f y + β * discOp kpar coords s t g y := by
  induction t with
  | nil => rfl
  | cons h t ih =>
    cases h with
    | mom c e =>
      simp only [discOp, ih]
      split
      · exact kDisc_iter_lin _ _ _ _ _ _ _
      · funext y; ring
    | fn u => simp only [discOp, ih]; funext y; ring

theorem kOp_apply (B : ℝ) (q : KM) (n : ℕ) :
    ∃ α β : ℂ, ∃ k k' : ℕ, ∀ φ, kOp B q φ n = α * φ k + β * φ k' := by
  cases n with
  | zero => exact ⟨0, star (kCoef B q) * (√((0 : ℕ) + 1 : ℝ) : ℝ), 0, 1, fun φ => by rw [kOp_eq]; simp [raiseOp, lowerOp]⟩
  | succ n =>
    exact ⟨kCoef B q * (√((n : ℝ) + 1) : ℝ), star (kCoef B q) * (√(((n + 1 : ℕ) : ℝ) + 1) : ℝ), n, n + 1 + 1, fun φ => by
      rw [kOp_eq]; simp only [raiseOp, lowerOp, Pi.add_apply, Pi.smul_apply, smul_eq_mul]; ring⟩

theorem kOp_discOp (kpar : Axis → ℂ) (coords : List Axis) (s : Pos) (t : Term) (B : ℝ) (q : KM) (Φ : Pos → ℕ → ℂ) (x : Pos) :
    kOp B q (fun n => discOp kpar coords s t (fun y => Φ y n) x) = fun n => discOp kpar coords s t (fun y => kOp B q (Φ y) n) x := by
  funext n
  obtain ⟨α, β, k, k', h⟩ := kOp_apply B q n
  rw [h]
  simp only [h]
  rw [discOp_lin]

theorem kOp_iter_discOp (kpar : Axis → ℂ) (coords : List Axis) (s : Pos) (t : Term) (B : ℝ) (q : KM) (e : ℕ) (Φ : Pos → ℕ → ℂ) (x : Pos) :
    (kOp B q)^[e] (fun n => discOp kpar coords s t (fun y => Φ y n) x) = fun n => discOp kpar coords s t (fun y => (kOp B q)^[e] (Φ y) n) x := by
  induction e generalizing Φ with
  | zero => rfl
  | succ e ih =>
    rw [Function.iterate_succ_apply, kOp_discOp, ih (fun y => kOp B q (Φ y))]
    simp only [Function.iterate_succ_apply]

theorem kwordOp_replicate (B : ℝ) (q : KM) (e : ℕ) (w : List KM) (φ : ℕ → ℂ) : kwordOp B (List.replicate e q ++ w) φ = (kOp B q)^[e] (kwordOp B w φ) := by
  induction e with
  | zero => rfl
  | succ e ih => rw [List.replicate_succ, List.cons_append, Function.iterate_succ_apply', ← ih]; rfl

/-- A summand is the product of its part in the plane and of its part in the normal direction. -/
theorem landauOp_split (kpar : Axis → ℂ) (ax : Axis) (B : ℝ) (s : Pos) (t : LTerm) (Φ : Pos → ℕ → ℂ) (x : Pos) :
    landauOp kpar ax B s t Φ x = fun n => discOp kpar [ax] s (rest t) (fun y => kwordOp B (kword t) (Φ y) n) x := by
  induction t generalizing x with
  | nil => rfl
  | cons f t ih =>
    cases f with
    | k q e =>
      simp only [landauOp, rest, kword]
      rw [ih, kOp_iter_discOp]
      simp only [kwordOp_replicate]
    | other f =>
      funext n
      simp only [landauOp, rest, kword]
      have : (fun y => landauOp kpar ax B s t Φ y n) = discOp kpar [ax] s (rest t) (fun y => kwordOp B (kword t) (Φ y) n) := by
        funext y; rw [ih]
      rw [this]
      cases f with
      | mom c e => simp only [discOp]
      | fn g => simp only [discOp]

/-! ### Sum over the sites in the normal direction -/

theorem list_finsum (l : List (List ℤ × ℂ)) (hl : ∀ p ∈ l, p.1.length = 1) (F : List ℤ → ℂ) :
    (Function.support fun k : ℤ => (l.map fun p => if p.1 = [k] then p.2 else 0).sum * F [k]).Finite ∧
    ∑ᶠ k : ℤ, (l.map fun p => if p.1 = [k] then p.2 else 0).sum * F [k] = (l.map fun p => p.2 * F p.1).sum := by
  induction l with
  | nil => simp
  | cons p l ih =>
    obtain ⟨h1, h2⟩ := ih fun q hq => hl q (List.mem_cons_of_mem _ hq)
    obtain ⟨z, hz⟩ : ∃ z, p.1 = [z] := List.length_eq_one_iff.mp (hl p List.mem_cons_self)
    have e : (fun k : ℤ => ((p :: l).map fun p => if p.1 = [k] then p.2 else 0).sum * F [k]) =
        fun k => (if k = z then p.2 * F p.1 else 0) + (l.map fun p => if p.1 = [k] then p.2 else 0).sum * F [k] := by
      funext k
      rw [List.map_cons, List.sum_cons, add_mul]
      congr 1
      by_cases hk : k = z
      · subst hk; simp [hz]
      · have : ¬ z = k := fun e => hk e.symm
        simp [hk, hz, this]
    have hfin : (Function.support fun k : ℤ => if k = z then p.2 * F p.1 else 0).Finite := by
      apply (Set.finite_singleton z).subset
      intro k hk
      by_contra h
      simp only [Function.mem_support, ne_eq] at hk
      exact hk (if_neg (by simpa using h))
    rw [e]
    refine ⟨(hfin.union h1).subset (Function.support_add _ _), ?_⟩
    rw [finsum_add_distrib hfin h1, h2, List.map_cons, List.sum_cons]
    congr 1
    rw [finsum_eq_single _ z]
    · simp
    · intro k hk; simp [hk]

theorem extract_len (kpar : Axis → ℂ) (ax : Axis) (t : Term) (p) (hp : p ∈ extractHoppings [ax] (expand (word kpar [ax] t))) : p.1.length = 1 := by
  obtain ⟨o, ho, -⟩ := ((extract_spec [ax] (by simp) _ (word_cnt_zero kpar [ax] t)).1 p.1).mp (List.mem_map_of_mem hp)
  rw [ho]; rfl

theorem term_sum (kpar : Axis → ℂ) (ax : Axis) (t : Term) (a x : Pos) (ψ : Pos → ℂ) :
    (Function.support fun k : ℤ => termVal kpar [ax] t a x [k] * ψ (gridAt [ax] [k] a x)).Finite ∧
    ∑ᶠ k : ℤ, termVal kpar [ax] t a x [k] * ψ (gridAt [ax] [k] a x) = discOp kpar [ax] (stepOf t a) t ψ x := by
  obtain ⟨-, h2, h3⟩ := extract_spec [ax] (by simp) _ (word_cnt_zero kpar [ax] t)
  have h := list_finsum ((extractHoppings [ax] (expand (word kpar [ax] t))).map fun p => (p.1, p.2 a x)) ?_ (fun k => ψ (gridAt [ax] k a x))
  · simp only [List.map_map, Function.comp_def] at h
    rw [h2 a x ψ, step_op] at h
    have e : ∀ k : ℤ, termVal kpar [ax] t a x [k] = ((extractHoppings [ax] (expand (word kpar [ax] t))).map fun p => if p.1 = [k] then p.2 a x else 0).sum :=
      fun k => (h3 a x [k] rfl).symm
    simp only [e]
    exact h
  · intro p hp
    obtain ⟨q, hq, rfl⟩ := List.mem_map.mp hp
    exact extract_len kpar ax t q hq

theorem finsum_list_sum {ι : Type*} (l : List ι) (f : ι → ℤ → ℂ) (h : ∀ t ∈ l, (Function.support (f t)).Finite) :
    (Function.support fun k => (l.map fun t => f t k).sum).Finite ∧ ∑ᶠ k, (l.map fun t => f t k).sum = (l.map fun t => ∑ᶠ k, f t k).sum := by
  induction l with
  | nil => simp
  | cons t l ih =>
    obtain ⟨h1, h2⟩ := ih fun u hu => h u (List.mem_cons_of_mem _ hu)
    have ht := h t List.mem_cons_self
    simp only [List.map_cons, List.sum_cons]
    refine ⟨(ht.union h1).subset (Function.support_add _ _), ?_⟩
    rw [finsum_add_distrib ht h1, h2]

/-- The operator with the coefficients `r t` in the normal direction and `w t` in the plane. -/
theorem landau_sum (kpar : Axis → ℂ) (ax : Axis) (B : ℝ) (ham : Fin m → Fin m → List LTerm) (r : LTerm → Term) (w : LTerm → List KM) (xpar : Pos) (gs : ℝ) (N : ℕ) (z : ℤ) (n : ℕ)
    (ψ : Pos → ℕ → Fin m → ℂ) (hψ : ∀ y k, N ≤ k → ψ y k = 0) (M : ℤ → Fin N → Matrix (Fin m) (Fin m) ℂ)
    (hM : ∀ z' n' i j, M z' n' i j = ((ham i j).map fun t => termVal kpar [ax] (r t) (fun _ => gs) (zpos xpar ax gs z) [z' - z] * kE B (w t) n n').sum) :
    ∑ᶠ z' : ℤ, ∑ n' : Fin N, M z' n' *ᵥ ψ (zpos xpar ax gs z') n' =
      fun i => ∑ j, ((ham i j).map fun t => discOp kpar [ax] (stepOf (r t) fun _ => gs) (r t) (fun y => kwordOp B (w t) (fun k => ψ y k j) n) (zpos xpar ax gs z)).sum := by
  set a : Pos := fun _ => gs
  set x := zpos xpar ax gs z with hx
  have hre : ∑ᶠ z' : ℤ, ∑ n' : Fin N, M z' n' *ᵥ ψ (zpos xpar ax gs z') n' = ∑ᶠ k : ℤ, ∑ n' : Fin N, M (z + k) n' *ᵥ ψ (zpos xpar ax gs (z + k)) n' :=
    (finsum_comp_equiv (Equiv.addLeft z)).symm
  rw [hre]
  have hpos : ∀ k, zpos xpar ax gs (z + k) = gridAt [ax] [k] a x := by
    intro k
    have := gridAt_zpos xpar ax gs (z + k) z
    rw [add_sub_cancel_left] at this
    exact this.symm
  have hval : ∀ k i, (∑ n' : Fin N, M (z + k) n' *ᵥ ψ (zpos xpar ax gs (z + k)) n') i =
      ∑ j, ((ham i j).map fun t => termVal kpar [ax] (r t) a x [k] * kwordOp B (w t) (fun l => ψ (gridAt [ax] [k] a x) l j) n).sum := by
    intro k i
    rw [Finset.sum_apply]
    simp only [Matrix.mulVec, dotProduct]
    rw [Finset.sum_comm]
    apply Finset.sum_congr rfl
    intro j _
    have e1 : ∀ n' : Fin N, M (z + k) n' i j * ψ (zpos xpar ax gs (z + k)) n' j =
        ((ham i j).map fun t => termVal kpar [ax] (r t) a x [k] * (kE B (w t) n n' * ψ (gridAt [ax] [k] a x) n' j)).sum := by
      intro n'
      rw [hM, hpos, add_sub_cancel_left, ← List.sum_map_mul_right]
      congr 1; apply List.map_congr_left; intro t _; ring
    simp only [e1]
    rw [← list_sum_finset]
    congr 1
    apply List.map_congr_left
    intro t _
    rw [← Finset.mul_sum, kwordOp_sum B (w t) (fun l => ψ (gridAt [ax] [k] a x) l j) N (fun l hl => by rw [hψ _ _ hl]; rfl)]
  have hts : ∀ t j, (Function.support fun k : ℤ => termVal kpar [ax] (r t) a x [k] * kwordOp B (w t) (fun l => ψ (gridAt [ax] [k] a x) l j) n).Finite ∧
      ∑ᶠ k : ℤ, termVal kpar [ax] (r t) a x [k] * kwordOp B (w t) (fun l => ψ (gridAt [ax] [k] a x) l j) n =
        discOp kpar [ax] (stepOf (r t) a) (r t) (fun y => kwordOp B (w t) (fun l => ψ y l j) n) x :=
    fun t j => term_sum kpar ax (r t) a x (fun y => kwordOp B (w t) (fun l => ψ y l j) n)
  have hls : ∀ i j, (Function.support fun k : ℤ => ((ham i j).map fun t => termVal kpar [ax] (r t) a x [k] * kwordOp B (w t) (fun l => ψ (gridAt [ax] [k] a x) l j) n).sum).Finite ∧
      ∑ᶠ k : ℤ, ((ham i j).map fun t => termVal kpar [ax] (r t) a x [k] * kwordOp B (w t) (fun l => ψ (gridAt [ax] [k] a x) l j) n).sum =
        ((ham i j).map fun t => discOp kpar [ax] (stepOf (r t) a) (r t) (fun y => kwordOp B (w t) (fun l => ψ y l j) n) x).sum := by
    intro i j
    have := finsum_list_sum (ham i j) (fun t k => termVal kpar [ax] (r t) a x [k] * kwordOp B (w t) (fun l => ψ (gridAt [ax] [k] a x) l j) n) (fun t _ => (hts t j).1)
    refine ⟨this.1, this.2.trans ?_⟩
    congr 1
    apply List.map_congr_left
    intro t _
    exact (hts t j).2
  funext i
  have hvec : (fun k : ℤ => ∑ n' : Fin N, M (z + k) n' *ᵥ ψ (zpos xpar ax gs (z + k)) n') = fun k i =>
      ∑ j, ((ham i j).map fun t => termVal kpar [ax] (r t) a x [k] * kwordOp B (w t) (fun l => ψ (gridAt [ax] [k] a x) l j) n).sum := by
    funext k i; exact hval k i
  rw [hvec]
  have hsupp : (Function.support fun (k : ℤ) (i : Fin m) =>
      ∑ j, ((ham i j).map fun t => termVal kpar [ax] (r t) a x [k] * kwordOp B (w t) (fun l => ψ (gridAt [ax] [k] a x) l j) n).sum).Finite := by
    apply (Set.finite_iUnion fun i : Fin m => Set.finite_iUnion fun j : Fin m => (hls i j).1).subset
    intro k hk
    by_contra hno
    apply hk
    funext i
    apply Finset.sum_eq_zero
    intro j _
    by_contra h
    exact hno (Set.mem_iUnion.mpr ⟨i, Set.mem_iUnion.mpr ⟨j, h⟩⟩)
  rw [finsum_apply hsupp, finsum_sum_comm]
  · apply Finset.sum_congr rfl
    intro j _
    exact (hls i j).2
  · intro j _; exact (hls i j).1

theorem kword_trans (c : Axis) (t : LTerm) : kword (transL c t) = kword t := by
  unfold transL
  rw [kword_append]
  have h1 : ∀ w : List KM, kword (w.map fun q => .k q 1) = w := by
    intro w; induction w with
    | nil => rfl
    | cons q w ih => simp only [List.map_cons, kword, ih]; rfl
  have h2 : ∀ s : Term, kword (s.map .other) = [] := by
    intro s; induction s with
    | nil => rfl
    | cons f s ih => simp only [List.map_cons, kword, ih]
  rw [h1, h2, List.append_nil]

theorem rest_trans (c : Axis) (t : LTerm) : rest (transL c t) = transTerm c (rest t) := by
  unfold transL
  rw [rest_append]
  have h1 : ∀ w : List KM, rest (w.map fun q => .k q 1) = [] := by
    intro w; induction w with
    | nil => rfl
    | cons q w ih => simp only [List.map_cons, rest, ih]
  have h2 : ∀ s : Term, rest (s.map .other) = s := by
    intro s; induction s with
    | nil => rfl
    | cons f s ih => simp only [List.map_cons, rest, ih]
  rw [h1, h2, List.nil_append]

/-- A summand with everything in the opposite order: the momenta of the plane are only reversed, the normal direction is transposed. -/
noncomputable def revL (c : Axis) (t : LTerm) : LTerm := ((kword t).reverse).map (fun q => .k q 1) ++ (transTerm c (rest t)).map .other

theorem kword_rev (c : Axis) (t : LTerm) : kword (revL c t) = (kword t).reverse := by
  have := kword_trans c (((kword t).reverse.map fun q => .k q 1) ++ (rest t).map .other)
  have h1 : ∀ w : List KM, kword (w.map fun q => .k q 1) = w := by
    intro w; induction w with
    | nil => rfl
    | cons q w ih => simp only [List.map_cons, kword, ih]; rfl
  have h2 : ∀ s : Term, kword (s.map .other) = [] := by
    intro s; induction s with
    | nil => rfl
    | cons f s ih => simp only [List.map_cons, kword, ih]
  unfold revL
  rw [kword_append, h1, h2, List.append_nil]

theorem rest_rev (c : Axis) (t : LTerm) : rest (revL c t) = transTerm c (rest t) := by
  have h1 : ∀ w : List KM, rest (w.map fun q => .k q 1) = [] := by
    intro w; induction w with
    | nil => rfl
    | cons q w ih => simp only [List.map_cons, rest, ih]
  have h2 : ∀ s : Term, rest (s.map .other) = s := by
    intro s; induction s with
    | nil => rfl
    | cons f s ih => simp only [List.map_cons, rest, ih]
  unfold revL
  rw [rest_append, h1, h2, List.nil_append]

theorem stepOf_trans (c : Axis) (t : Term) (a : Pos) : stepOf (transTerm c t) a = stepOf t a := by
  funext c'; unfold stepOf; rw [degree_trans]

theorem termVal_trans_site (kpar : Axis → ℂ) (ax : Axis) (t : Term) (xpar : Pos) (gs : ℝ) (z z' : ℤ) :
    termVal kpar [ax] t (fun _ => gs) (zpos xpar ax gs z') [z - z'] = termVal kpar [ax] (transTerm ax t) (fun _ => gs) (zpos xpar ax gs z) [z' - z] := by
  rw [← termVal_trans, gridAt_zpos, neg_sub]

section main
variable (kpar : Axis → ℂ) (hk : ∀ c, star (kpar c) = kpar c) (xpar : Pos) (ax : Axis) (gs B : ℝ) (ham : Fin m → Fin m → List LTerm) (hh : LandauHermitian ham)
  (d : List (LKey × (Pos → Pos → Matrix (Fin m) (Fin m) ℂ))) (hd : d.Perm (landauDict kpar ax B ham)) (N : ℕ)
  (M : ℤ × ℕ → ℤ × ℕ → Matrix (Fin m) (Fin m) ℂ) (hM : ∀ s s', s.2 < N → s'.2 < N → (landauSystem B xpar ax gs d).element s s' = some (M s s'))
  (ψ : Pos → ℕ → Fin m → ℂ) (hψ : ∀ y k, N ≤ k → ψ y k = 0) (z : ℤ) (n : ℕ) (hn : n < N)

include hk hh hd hM hψ hn

/-- C138.  What `discretize_landau` builds, for a field that is not negative: the Hamiltonian, truncated to `N` Landau levels, in which in every summand the part in the normal direction
is transposed, that is `k_z` is replaced by `-k_z` and the factors that do not commute with it are in the opposite order.  For every state in the first `N` levels. -/
theorem landau_operator_transposed (hB : 0 ≤ B) :
    ∑ᶠ z' : ℤ, ∑ n' : Fin N, M (z, n) (z', n') *ᵥ ψ (zpos xpar ax gs z') n' =
      fun i => ∑ j, ((ham i j).map fun t => landauOp kpar ax B (stepOf (rest t) fun _ => gs) (transL ax t) (fun y k => ψ y k j) (zpos xpar ax gs z) n).sum := by
  have := landau_sum kpar ax B ham (fun t => transTerm ax (rest t)) kword xpar gs N z n ψ hψ (fun z' n' => M (z, n) (z', n')) ?_
  · rw [this]
    simp only [landauOp_split, kword_trans, rest_trans, stepOf_trans]
  · intro z' n' i j
    rw [element_value kpar hk xpar ax gs B ham hh d hd _ _ _ (hM (z, n) (z', n') hn n'.2)]
    unfold gVal kSeen
    simp only [not_lt.mpr hB, if_false, termVal_trans_site kpar ax _ xpar gs z z']

/-- C138.  If the part of every summand in the normal direction is symmetric - for example `k_z**2`, `k_z*A(z)*k_z`, `V(z)`, or nothing - then the system is, for a field that is not
negative, the Hamiltonian with ladder operators and central differences, truncated to `N` Landau levels. -/
theorem landau_operator_partial (hB : 0 ≤ B) (hsym : ∀ i j, ∀ t ∈ ham i j, SameOp (transTerm ax (rest t)) (rest t)) :
    ∑ᶠ z' : ℤ, ∑ n' : Fin N, M (z, n) (z', n') *ᵥ ψ (zpos xpar ax gs z') n' =
      fun i => ∑ j, ((ham i j).map fun t => landauOp kpar ax B (stepOf (rest t) fun _ => gs) t (fun y k => ψ y k j) (zpos xpar ax gs z) n).sum := by
  have := landau_sum kpar ax B ham rest kword xpar gs N z n ψ hψ (fun z' n' => M (z, n) (z', n')) ?_
  · rw [this]
    simp only [landauOp_split]
  · intro z' n' i j
    rw [element_value kpar hk xpar ax gs B ham hh d hd _ _ _ (hM (z, n) (z', n') hn n'.2)]
    unfold gVal kSeen
    simp only [not_lt.mpr hB, if_false]
    congr 1
    apply List.map_congr_left
    intro t ht
    rw [termVal_trans_site kpar ax _ xpar gs z z', termVal_congr kpar [ax] (hsym i j t ht)]

/-- C139.  What `discretize_landau` builds for a negative field: the Hamiltonian for the field `|B|` in which the momenta of the plane are in the opposite order in every summand (and the
part in the normal direction is transposed). -/
theorem landau_operator_negative (hB : B < 0) :
    ∑ᶠ z' : ℤ, ∑ n' : Fin N, M (z, n) (z', n') *ᵥ ψ (zpos xpar ax gs z') n' =
      fun i => ∑ j, ((ham i j).map fun t => landauOp kpar ax |B| (stepOf (rest t) fun _ => gs) (revL ax t) (fun y k => ψ y k j) (zpos xpar ax gs z) n).sum := by
  have := landau_sum kpar ax |B| ham (fun t => transTerm ax (rest t)) (fun t => (kword t).reverse) xpar gs N z n ψ hψ (fun z' n' => M (z, n) (z', n')) ?_
  · rw [this]
    simp only [landauOp_split, kword_rev, rest_rev, stepOf_trans]
  · intro z' n' i j
    rw [element_value kpar hk xpar ax gs B ham hh d hd _ _ _ (hM (z, n) (z', n') hn n'.2)]
    unfold gVal kSeen
    simp only [hB, if_true, termVal_trans_site kpar ax _ xpar gs z z']
    congr 1
    apply List.map_congr_left
    intro t _
    rw [← kE_star B hB, kE_adj, List.reverse_reverse]

omit hn in
/-- C139.  The system is Hermitian, for every field. -/
theorem landau_hermitian (s s' : ℤ × ℕ) (h : s.2 < N) (h' : s'.2 < N) : M s' s = (M s s')ᴴ := by
  rw [element_value kpar hk xpar ax gs B ham hh d hd _ _ _ (hM s s' h h'), element_value kpar hk xpar ax gs B ham hh d hd _ _ _ (hM s' s h' h)]
  rw [← gVal_adj kpar hk ax B ham hh _ _ _ rfl, gridAt_zpos]
  simp [negKey]

end main

/-- C137.  If no summand has more than six momenta of the plane, all the matrix elements between Landau levels can be evaluated. -/
theorem landau_evaluates (kpar : Axis → ℂ) (xpar : Pos) (ax : Axis) (gs B : ℝ) (ham : Fin m → Fin m → List LTerm)
    (d : List (LKey × (Pos → Pos → Matrix (Fin m) (Fin m) ℂ))) (hd : d.Perm (landauDict kpar ax B ham)) (hdeg : ∀ i j, ∀ t ∈ ham i j, (kword t).length ≤ 6) (s s' : ℤ × ℕ) :
    ((landauSystem B xpar ax gs d).element s s').isSome = true := by
  classical
  have hlen : ∀ (w : List KM) (p), p ∈ expandK B w → p.1.length = w.length := by
    intro w
    induction w with
    | nil => intro p hp; simp [expandK] at hp; simp [hp]
    | cons q w ih =>
      intro p hp
      simp only [expandK, List.mem_flatMap, List.mem_map] at hp
      obtain ⟨a, -, r, hr, rfl⟩ := hp
      simp [ih r hr]
  have hword : ∀ p ∈ landauKept d, p.1.2.length ≤ 6 := by
    intro p hp
    have hp' : p ∈ d := (List.mem_filter.mp hp).1
    have := (hd.map Prod.fst).mem_iff.mp (List.mem_map_of_mem hp')
    obtain ⟨e, he, h1, -⟩ := ((dict_spec kpar ax B ham).2.1 p.1).mp this
    obtain ⟨h2, h3⟩ := (mem_summands B ham e).mp he
    rw [h1, hlen _ _ h3]
    exact hdeg _ _ _ h2
  have hpv : ∀ (k : List ℤ) (c : ℤ) (a x : Pos) (idx : ℕ), 0 ≤ (idx : ℤ) + (if B < 0 then -c else c) →
      (partsValue B a ((landauKept d).filter fun p => decide (kindOf p.1 = (k, c))) x idx).isSome = true := by
    intro k c a x idx hidx
    unfold partsValue
    rw [if_pos]
    · rfl
    · rw [List.all_eq_true]
      intro p hp
      obtain ⟨hp1, hp2⟩ := List.mem_filter.mp hp
      have hnet : net p.1.2 = c := congrArg Prod.snd (by simpa using hp2 : kindOf p.1 = (k, c))
      exact evaluate_no_error _ _ _ (hword p hp1) (by rw [hnet]; exact hidx)
  obtain ⟨z, n⟩ := s
  obtain ⟨z', n'⟩ := s'
  unfold LandauSystem.element
  split
  · simp only [landauSystem]
    have := hpv [0] 0 (fun _ => gs) (zpos xpar ax gs z) n (by simp)
    convert this
  · split
    · rfl
    · next r hr =>
      have hr1 := List.mem_reverse.mp (List.mem_of_find?_eq_some hr)
      have hrk : r.1 = tagDiff (z, n) (z', n') ∨ r.1 = tagDiff (z', n') (z, n) := by simpa using List.find?_some hr
      have hgo : ∀ (s s' : ℤ × ℕ), r.1 = tagDiff s s' → (r.2 s s').isSome = true := by
        intro s s' hrs
        simp only [landauSystem, List.mem_cons, List.mem_map, List.mem_filter, mem_firstOccs] at hr1
        rcases hr1 with rfl | ⟨k, -, rfl⟩
        · rfl
        · simp only at hrs ⊢
          have := hpv [s.1 - s'.1] (s.2 - s'.2) (fun _ => gs) (zpos xpar ax gs s'.1) (if B < 0 then s.2 else s'.2) (by split <;> omega)
          rw [show k = ([s.1 - s'.1], (s.2 : ℤ) - s'.2) from hrs]
          exact this
      split
      · next h => exact hgo _ _ h
      · next h =>
        rw [Option.isSome_map]
        exact hgo _ _ (hrk.resolve_left h)

end Kwant.Continuum
