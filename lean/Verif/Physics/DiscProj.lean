import Verif.Physics.DiscSym

/-!
C68, C100: the projectors of a `DiscreteSymmetry` (kwant/physics/symmetry.py l.147-165).
-/

set_option linter.unusedSectionVars false

namespace Kwant.DiscSym
open Matrix Complex

variable {n : ℕ}

theorem checkCanon_ok (ps : List (Proj n)) (i : Fin 3) (conj : Bool) (symm : Option (Mat n)) :
    checkCanon ps i conj symm = .ok () ↔ ∀ s, symm = some s → ∀ p ∈ ps, ps.countP (fun q => nonzeroBlock p s (condConjP q conj)) ≤ 1 := by
  unfold checkCanon
  cases symm with
  | none => simp
  | some s =>
    simp only [Option.some.injEq, forall_eq']
    by_cases h : ps.any fun p => decide (1 < ps.countP fun q => nonzeroBlock p s (condConjP q conj))
    · rw [if_pos h]
      simp only [List.any_eq_true, decide_eq_true_eq] at h
      obtain ⟨p, hp, hl⟩ := h
      simp only [reduceCtorEq, false_iff]
      intro hx
      have := hx p hp
      omega
    · rw [if_neg h]
      simp only [List.any_eq_true, decide_eq_true_eq, not_exists, not_and, not_lt] at h
      simp only [true_iff]
      exact h

/-- What is known about accepted projectors. -/
theorem init_projectors {ps : List (Proj n)} {T P C : Option (Mat n)} {st : Stored n} (h : init (some ps) T P C = .ok st) :
    st.projectors = some (ps.map dropZero) ∧ ((ps.map dropZero).map full).sum = 1 ∧
    checkCanon (ps.map dropZero) 0 true st.T = .ok () ∧ checkCanon (ps.map dropZero) 1 true st.P = .ok () ∧
    checkCanon (ps.map dropZero) 2 false st.C = .ok () := by
  unfold init at h
  split at h
  · cases h
  · generalize complete T P C = s at h
    simp only at h
    cases h0 : checkOne 0 true s.1 with
    | error e => rw [h0] at h; cases h
    | ok _ =>
      rw [h0] at h
      cases h1 : checkOne 1 true s.2.1 with
      | error e => rw [h1] at h; cases h
      | ok _ =>
        rw [h1] at h
        cases h2 : checkOne 2 false s.2.2 with
        | error e => rw [h2] at h; cases h
        | ok _ =>
          rw [h2] at h
          simp only [bind, Except.bind] at h
          unfold checkProj at h
          simp only at h
          by_cases hs : ((ps.map dropZero).map full).sum = 1
          · rw [if_neg (not_not.mpr hs)] at h
            cases c0 : checkCanon (ps.map dropZero) 0 true s.1 with
            | error e => rw [c0] at h; cases h
            | ok _ =>
              rw [c0] at h
              cases c1 : checkCanon (ps.map dropZero) 1 true s.2.1 with
              | error e => rw [c1] at h; cases h
              | ok _ =>
                rw [c1] at h
                cases c2 : checkCanon (ps.map dropZero) 2 false s.2.2 with
                | error e => rw [c2] at h; cases h
                | ok _ =>
                  rw [c2] at h
                  simp only [bind, Except.bind, Except.ok.injEq] at h
                  subst h
                  exact ⟨rfl, hs, c0, c1, c2⟩
          · rw [if_pos hs] at h; cases h

/-- The matrix with the given columns: what the projectors stack to. -/
def stack (cols : List (Fin n → ℂ)) : Matrix (Fin n) (Fin cols.length) ℂ := fun i k => cols[k] i

theorem sum_full_eq (qs : List (Proj n)) : (qs.map full).sum = (qs.flatten.map fun v => vecMulVec v (star v)).sum := by
  induction qs with
  | nil => rfl
  | cons q qs ih => rw [List.map_cons, List.sum_cons, ih, List.flatten_cons, List.map_append, List.sum_append]; rfl

theorem stack_mul (cols : List (Fin n → ℂ)) : stack cols * (stack cols)ᴴ = (cols.map fun v => vecMulVec v (star v)).sum := by
  ext i j
  rw [mul_apply]
  have : ((cols.map fun v => vecMulVec v (star v)).sum) i j = (cols.map fun v => v i * star (v j)).sum := by
    induction cols with
    | nil => rfl
    | cons v l ih =>
      rw [List.map_cons, List.sum_cons, List.map_cons, List.sum_cons, ← ih]
      rfl
  rw [this, ← Fin.sum_univ_fun_getElem cols (fun v => v i * star (v j))]
  rfl

/-- Stored projectors stack to a unitary matrix: their columns are orthonormal and complete. -/
def StackUnitary (qs : List (Proj n)) : Prop :=
  (∀ (a b : ℕ) (v w : Fin n → ℂ), qs.flatten[a]? = some v → qs.flatten[b]? = some w → star v ⬝ᵥ w = if a = b then 1 else 0) ∧
  qs.flatten.length = n

/-- **C100 (partial).** If the projectors have `n` nonzero columns altogether, the constructor accepts them only if they stack to a
unitary matrix; zero columns are dropped.  Missing: nothing checks the number of columns (`C100_counterexample`). -/
theorem C100_projectors_partial {ps : List (Proj n)} {T P C : Option (Mat n)} {st : Stored n} (h : init (some ps) T P C = .ok st) :
    ∃ qs, st.projectors = some qs ∧ qs = ps.map (fun p => p.filter fun v => decide (v ≠ 0)) ∧ (qs.flatten.length = n → StackUnitary qs) := by
  obtain ⟨h1, h2, -⟩ := init_projectors h
  refine ⟨ps.map dropZero, h1, ?_, ?_⟩
  · refine List.map_congr_left fun p _ => ?_
    unfold dropZero
    exact List.filter_congr fun v _ => by congr
  · intro hl
    refine ⟨?_, hl⟩
    rw [sum_full_eq, ← stack_mul] at h2
    have h3 : (stack (ps.map dropZero).flatten)ᴴ * stack (ps.map dropZero).flatten = 1 :=
      (mul_eq_one_comm_of_equiv (A := stack (ps.map dropZero).flatten) (B := (stack (ps.map dropZero).flatten)ᴴ) (finCongr hl.symm)).mp h2
    intro a b v w hv hw
    obtain ⟨ha, rfl⟩ := List.getElem?_eq_some_iff.mp hv
    obtain ⟨hb, rfl⟩ := List.getElem?_eq_some_iff.mp hw
    have := congrFun (congrFun h3 ⟨a, ha⟩) ⟨b, hb⟩
    rw [mul_apply, one_apply] at this
    simp only [Fin.mk.injEq] at this
    rw [← this]
    rfl

/-- If the columns are orthonormal and complete, the check of the projectors succeeds. -/
theorem C100_accepts {qs : List (Proj n)} (h : StackUnitary qs) (hz : ∀ q ∈ qs, ∀ v ∈ q, v ≠ 0) : init (some qs) none none none = .ok ⟨some qs, none, none, none⟩ := by
  have hd : qs.map dropZero = qs := by
    conv_rhs => rw [← List.map_id qs]
    refine List.map_congr_left fun q hq => ?_
    unfold dropZero
    rw [List.filter_eq_self.mpr]
    · rfl
    · intro v hv; simpa using hz q hq v hv
  have hs : ((qs.map dropZero).map full).sum = 1 := by
    rw [hd, sum_full_eq, ← stack_mul]
    refine (mul_eq_one_comm_of_equiv (A := stack qs.flatten) (B := (stack qs.flatten)ᴴ) (finCongr h.2.symm)).mpr ?_
    ext a b
    rw [mul_apply, one_apply]
    have := h.1 a b _ _ (List.getElem?_eq_getElem a.2) (List.getElem?_eq_getElem b.2)
    simp only [Fin.ext_iff]
    rw [← this]
    rfl
  simp only [init, productBad, Bool.false_eq_true, if_false, complete, checkOne, checkProj, hs, not_true_eq_false, checkCanon, bind, Except.bind]
  rw [hd]

/-- **C100 is false in general**: the "projectors" `(3/5)` and `(4/5)` on a one-dimensional space are accepted although they stack to
the matrix `(3/5 4/5)`, which is not square. -/
theorem C100_counterexample :
    init (n := 1) (some [[fun _ => (3 / 5 : ℂ)], [fun _ => (4 / 5 : ℂ)]]) none none none =
      .ok ⟨some [[fun _ => (3 / 5 : ℂ)], [fun _ => (4 / 5 : ℂ)]], none, none, none⟩ ∧
    ¬ StackUnitary (n := 1) [[fun _ => (3 / 5 : ℂ)], [fun _ => (4 / 5 : ℂ)]] := by
  have hd : ([[fun _ => (3 / 5 : ℂ)], [fun _ => (4 / 5 : ℂ)]] : List (Proj 1)).map dropZero = [[fun _ => (3 / 5 : ℂ)], [fun _ => (4 / 5 : ℂ)]] := by
    have h1 : (fun _ : Fin 1 => (3 / 5 : ℂ)) ≠ 0 := fun h => by have := congrFun h 0; simp at this
    have h2 : (fun _ : Fin 1 => (4 / 5 : ℂ)) ≠ 0 := fun h => by have := congrFun h 0; simp at this
    simp [dropZero, h1, h2]
  have hs : ((([[fun _ => (3 / 5 : ℂ)], [fun _ => (4 / 5 : ℂ)]] : List (Proj 1)).map dropZero).map full).sum = 1 := by
    rw [hd]
    ext i j
    have : i = j := Subsingleton.elim i j
    subst this
    simp [full, vecMulVec_apply]
    norm_num
  constructor
  · simp only [init, productBad, Bool.false_eq_true, if_false, complete, checkOne, checkProj, hs, not_true_eq_false, checkCanon, bind, Except.bind]
    rw [hd]
  · rintro ⟨_, h⟩
    simp at h

/-! ### Canonical form -/

/-- The block of a symmetry between two projectors vanishes. -/
def BlockZero (p : Proj n) (s : Mat n) (q : Proj n) : Prop := ∀ v ∈ p, ∀ w ∈ q, star v ⬝ᵥ s *ᵥ w = 0

/-- The documented canonical form: for each block of rows, at most one block is nonzero. -/
def Canonical (ps : List (Proj n)) (s : Mat n) (conj : Bool) : Prop :=
  ∀ p ∈ ps, ∀ (i j : ℕ) (q r : Proj n), ps[i]? = some q → ps[j]? = some r →
    ¬ BlockZero p s (condConjP q conj) → ¬ BlockZero p s (condConjP r conj) → i = j

theorem countP_unique {α : Type} {f : α → Bool} {l : List α} (h : l.countP f ≤ 1) {i j : ℕ} {a b : α} (hi : l[i]? = some a) (hj : l[j]? = some b)
    (ha : f a = true) (hb : f b = true) : i = j := by
  induction l generalizing i j with
  | nil => simp at hi
  | cons x l ih =>
    rw [List.countP_cons] at h
    have hpos : ∀ {k : ℕ} {c : α}, l[k]? = some c → f c = true → 0 < l.countP f := fun hk hc =>
      List.countP_pos_iff.mpr ⟨_, List.mem_of_getElem? hk, hc⟩
    cases i with
    | zero =>
      cases j with
      | zero => rfl
      | succ j =>
        simp only [List.getElem?_cons_zero, Option.some.injEq] at hi
        rw [List.getElem?_cons_succ] at hj
        have := hpos hj hb
        subst hi
        rw [if_pos ha] at h; omega
    | succ i =>
      rw [List.getElem?_cons_succ] at hi
      cases j with
      | zero =>
        simp only [List.getElem?_cons_zero, Option.some.injEq] at hj
        have := hpos hi ha
        subst hj
        rw [if_pos hb] at h; omega
      | succ j =>
        rw [List.getElem?_cons_succ] at hj
        rw [ih (by omega) hi hj]

/-- The entries of the blocks that the check can see: zero or larger than the threshold in the order of numpy's complex numbers. -/
def Visible (ps : List (Proj n)) (s : Mat n) (conj : Bool) : Prop :=
  ∀ p ∈ ps, ∀ q ∈ ps, ∀ v ∈ p, ∀ w ∈ condConjP q conj, star v ⬝ᵥ s *ᵥ w = 0 ∨ numpyGt (star v ⬝ᵥ s *ᵥ w) (1e-7)

theorem canonical_of_visible {ps : List (Proj n)} {i : Fin 3} {conj : Bool} {symm : Option (Mat n)} (h : checkCanon ps i conj symm = .ok ())
    {s : Mat n} (hs : symm = some s) (hv : Visible ps s conj) : Canonical ps s conj := by
  have hc := (checkCanon_ok ps i conj symm).mp h s hs
  intro p hp a b q r hq hr hzq hzr
  have key : ∀ q ∈ ps, ¬ BlockZero p s (condConjP q conj) → nonzeroBlock p s (condConjP q conj) = true := by
    intro q hq hz
    unfold BlockZero at hz
    push Not at hz
    obtain ⟨v, hv', w, hw, hne⟩ := hz
    unfold nonzeroBlock blockEntries
    rw [List.any_eq_true]
    refine ⟨star v ⬝ᵥ s *ᵥ w, ?_, ?_⟩
    · rw [List.mem_flatMap]
      exact ⟨v, hv', List.mem_map.mpr ⟨w, hw, rfl⟩⟩
    · have := (hv p hp q hq v hv' w hw).resolve_left hne
      simpa using this
  exact countP_unique (hc p hp) hq hr (key q (List.mem_of_getElem? hq) hzq) (key r (List.mem_of_getElem? hr) hzr)

/-- **C68 (partial).** If all entries of the blocks are zero or positive above the threshold, accepted symmetries are in canonical
form.  Missing: negative and imaginary entries, which the check does not see (`C68_counterexample`). -/
theorem C68_canonical_partial {ps : List (Proj n)} {T P C : Option (Mat n)} {st : Stored n} (h : init (some ps) T P C = .ok st)
    {qs : List (Proj n)} (hq : st.projectors = some qs) :
    (∀ t, st.T = some t → Visible qs t true → Canonical qs t true) ∧
    (∀ p, st.P = some p → Visible qs p true → Canonical qs p true) ∧
    (∀ c, st.C = some c → Visible qs c false → Canonical qs c false) := by
  obtain ⟨h1, h2, c0, c1, c2⟩ := init_projectors h
  rw [h1] at hq
  obtain rfl : ps.map dropZero = qs := Option.some.inj hq
  exact ⟨fun t ht hv => canonical_of_visible c0 ht hv, fun p hp hv => canonical_of_visible c1 hp hv,
    fun c hc hv => canonical_of_visible c2 hc hv⟩

/-- The chiral symmetry of the counterexample. -/
noncomputable def badC : Mat 2 := !![-3 / 5, -4 / 5; -4 / 5, 3 / 5]

/-- The projectors on the two basis vectors. -/
def twoProj : List (Proj 2) := [[![1, 0]], [![0, 1]]]

/-- **C68 is false in general**: a chiral symmetry with two nonzero blocks in a row is accepted. -/
theorem C68_counterexample :
    ∃ st, init (some twoProj) none none (some badC) = .ok st ∧ st.projectors = some twoProj ∧ st.C = some badC ∧ ¬ Canonical twoProj badC false := by
  have hd : twoProj.map dropZero = twoProj := by
    have h1 : (![1, 0] : Fin 2 → ℂ) ≠ 0 := fun h => by have := congrFun h 0; simp at this
    have h2 : (![0, 1] : Fin 2 → ℂ) ≠ 0 := fun h => by have := congrFun h 1; simp at this
    simp [dropZero, twoProj, h1, h2]
  have hs : ((twoProj.map dropZero).map full).sum = 1 := by
    rw [hd]
    ext i j
    fin_cases i <;> fin_cases j <;> simp [twoProj, full, vecMulVec_apply, Pi.star_apply, -vecMulVec_cons, -Matrix.cons_vecMulVec]
  have hu : badCᴴ * badC = 1 := by
    ext i j
    fin_cases i <;> fin_cases j <;> simp [badC, mul_apply, Fin.sum_univ_two, map_ofNat] <;> norm_num
  have hq : badC * badC = 1 := by
    ext i j
    fin_cases i <;> fin_cases j <;> simp [badC, mul_apply, Fin.sum_univ_two, map_ofNat] <;> norm_num
  have hcc : checkCanon twoProj 2 false (some badC) = .ok () := by
    rw [checkCanon_ok]
    intro s hs
    obtain rfl := Option.some.inj hs
    intro p hp
    have : ∀ z : ℂ, numpyGt z 1e-7 → 0 < z.re := fun z hz => by
      rcases hz with hz | ⟨hz, -⟩
      · linarith [show (0 : ℝ) < 1e-7 by norm_num]
      · rw [hz]; norm_num
    have n1 : ¬ numpyGt (-3 / 5) 1e-7 := fun h => by have := this _ h; norm_num at this
    have n2 : ¬ numpyGt (-4 / 5) 1e-7 := fun h => by have := this _ h; norm_num at this
    have hb : ∀ a b c d : ℂ, blockEntries [![a, b]] badC [![c, d]] =
        [starRingEnd ℂ a * (-3 / 5 * c + -4 / 5 * d) + starRingEnd ℂ b * (-4 / 5 * c + 3 / 5 * d)] := by
      intro a b c d
      simp only [blockEntries, List.flatMap_cons, List.flatMap_nil, List.map_cons, List.map_nil, List.append_nil, dotProduct, mulVec,
        Fin.sum_univ_two, Pi.star_apply]
      rfl
    have b00 : nonzeroBlock [![1, 0]] badC [![1, 0]] = false := by unfold nonzeroBlock; rw [hb]; simp [n1]
    have b01 : nonzeroBlock [![1, 0]] badC [![0, 1]] = false := by unfold nonzeroBlock; rw [hb]; simp [n2]
    have b10 : nonzeroBlock [![0, 1]] badC [![1, 0]] = false := by unfold nonzeroBlock; rw [hb]; simp [n2]
    simp only [twoProj, List.mem_cons, List.not_mem_nil, or_false] at hp
    simp only [twoProj, condConjP, Bool.false_eq_true, if_false, List.countP_cons, List.countP_nil]
    rcases hp with rfl | rfl
    · rw [b00, b01]; decide
    · rw [b10]
      simp only [Bool.false_eq_true, if_false]
      split <;> omega
  refine ⟨⟨some twoProj, none, none, some badC⟩, ?_, rfl, rfl, ?_⟩
  · have h1 : checkOne 2 false (some badC) = .ok () := (checkOne_chiral 2 _).mpr fun u hu' => by
      obtain rfl := Option.some.inj hu'
      exact (validC_iff _).mpr ⟨hu, hq⟩
    have h0 : ∀ i b, checkOne (n := 2) i b none = .ok () := fun _ _ => rfl
    simp only [init, productBad, Bool.false_eq_true, if_false, complete, h0, h1, checkProj, hs, not_true_eq_false, bind, Except.bind]
    rw [hd, hcc]
    rfl
  · intro h
    have := h [![1, 0]] (by simp [twoProj]) 0 1 [![1, 0]] [![0, 1]] rfl rfl
      (by simp [BlockZero, condConjP, badC, dotProduct, mulVec, Fin.sum_univ_two])
      (by simp [BlockZero, condConjP, badC, dotProduct, mulVec, Fin.sum_univ_two])
    exact absurd this (by decide)

/-- A case with three symmetries: `T = K`, `P = σx K`, and the chiral symmetry `σx` is found. -/
example : init (n := 2) none (some 1) (some !![0, 1; 1, 0]) none =
    .ok ⟨none, some 1, some !![0, 1; 1, 0], some !![0, 1; 1, 0]⟩ := by
  refine (C60_exact _ _ _ 1 !![0, 1; 1, 0] !![0, 1; 1, 0] (fun u h => h) (fun u h => h) (fun u h => by cases h) (by simp [TwoGiven])).mp ?_
  have hx : (!![0, 1; 1, 0] : Mat 2)ᴴ * !![0, 1; 1, 0] = 1 := by
    ext i j; fin_cases i <;> fin_cases j <;> simp [mul_apply, Fin.sum_univ_two]
  have hxx : (!![0, 1; 1, 0] : Mat 2) * !![0, 1; 1, 0] = 1 := by
    ext i j; fin_cases i <;> fin_cases j <;> simp [mul_apply, Fin.sum_univ_two]
  have hxc : cj (!![0, 1; 1, 0] : Mat 2) = !![0, 1; 1, 0] := by
    ext i j; fin_cases i <;> fin_cases j <;> simp [cj]
  refine ⟨fun t h => ?_, fun p h => ?_, fun c h => ?_, fun t p c h1 h2 h3 => ?_⟩
  · obtain rfl := Option.some.inj h
    exact (validT_iff _).mpr ⟨by simp, Or.inl (by rw [cj_one, one_mul])⟩
  · obtain rfl := Option.some.inj h
    exact (validT_iff _).mpr ⟨hx, Or.inl (by rw [hxc, hxx])⟩
  · obtain rfl := Option.some.inj h
    exact (validC_iff _).mpr ⟨hx, hxx⟩
  · obtain rfl := Option.some.inj h1
    obtain rfl := Option.some.inj h2
    obtain rfl := Option.some.inj h3
    rw [productOne_iff, cj_one, mul_one, hxx]

end Kwant.DiscSym
