import Verif.Linalg.GenSchurOrder

/-!
# Eigenvectors from Schur forms: `lapack.pyx` `txevc_postprocess`, `trevc`, `tgevc`
and `evecs_from_schur`, `evecs_from_gen_schur` of `decomp_schur.py`
-/

set_option linter.unusedSectionVars false

namespace Kwant.Schur

open Matrix

/-- A column of numbers. -/
abbrev Col := ℕ → ℂ

/-- One turn of the loop in `txevc_postprocess` for the selected index `k`
(lapack.pyx l.203-227); the state is `indx` and the columns of `v` written so far. -/
noncomputable def postStep (n : ℕ) (T vreal : Arr ℝ) (sel : ℕ → Bool) (st : ℕ × List Col)
    (k : ℕ) : ℕ × List Col :=
  let indx := st.1
  if k + 1 < n ∧ T (k + 1) k ≠ 0 then
    (if sel (k + 1) then indx else indx + 2,
      st.2 ++ [fun r => vreal r indx + Complex.I * vreal r (indx + 1)])
  else if 0 < k ∧ T k (k - 1) ≠ 0 then
    (indx + 2, st.2 ++ [fun r => vreal r indx - Complex.I * vreal r (indx + 1)])
  else
    (indx + 1, st.2 ++ [fun r => (vreal r indx : ℂ)])

/-- `select`, or all ones if it is `None` (lapack.pyx l.194-195). -/
def selOf (select : Option (ℕ → Bool)) : ℕ → Bool := select.getD (fun _ => true)

/-- `txevc_postprocess(dtype, T, vreal, select)` (lapack.pyx l.190-228): the list of
the columns of `v`. -/
noncomputable def postprocess (n : ℕ) (T vreal : Arr ℝ) (select : Option (ℕ → Bool)) : List Col :=
  (((List.range n).filter (selOf select)).foldl (postStep n T vreal (selOf select)) (0, [])).2

/-- `np.dot(q, v)` (lapack.pyx l.343-346, l.655-658). -/
def dotA (n : ℕ) (q v : Arr ℝ) : Arr ℝ := fun r c => ∑ k ∈ Finset.range n, q r k * v k c

/-- The number `MM` of columns provided to LAPACK (lapack.pyx l.278-292, l.306, and
l.570-582, l.588). -/
noncomputable def colsMM (n : ℕ) (T : Arr ℝ) : Option (ℕ → Bool) → ℕ
  | none => n
  | some sel =>
    ((List.range n).filter sel).length +
      ((blockpos n T).filter (fun i => sel i != sel (i + 1))).length

/-- What is done for one side (left or right) after the call of LAPACK (lapack.pyx
l.342-366, l.654-677): if there is a selection the columns of `v` are
multiplied by `q` (otherwise LAPACK has done so), and they are postprocessed if there is a 2x2 block. -/
noncomputable def finishSide (n : ℕ) (T q v : Arr ℝ) (select : Option (ℕ → Bool)) : List Col :=
  let v' := if select.isSome then dotA n q v else v
  if (blockpos n T).isEmpty then
    (List.range (colsMM n T select)).map (fun m r => (v' r m : ℂ))
  else postprocess n T v' select

/-- LAPACK's real `xTREVC` / `xTGEVC`: for a selection and matrices to multiply with
(used only if there is no selection) the left vectors, the right vectors and the
number `M` of columns. -/
structure Xevc where
  run : Option (ℕ → Bool) → Arr ℝ × Arr ℝ × ℕ

/-- `evecs_from_schur(t, q, select, left=True, right=True)` for real arrays
(decomp_schur.py l.221-276, lapack.pyx l.231-372): the pair of lists of left and right vectors;
`none` is the failure of the assertion `MM == M` (l.340).  Asking for one side
only gives that component. -/
noncomputable def evecsFromSchur (L : Xevc) (n : ℕ) (t q : Arr ℝ) (select : Option (ℕ → Bool)) :
    Option (List Col × List Col) :=
  let (vl, vr, M) := L.run select
  if colsMM n t select = M then
    some (finishSide n t q vl select, finishSide n t q vr select)
  else none

/-- `evecs_from_gen_schur(s, t, q, z, select, left=True, right=True)` for real arrays
(decomp_schur.py l.549-635, lapack.pyx l.524-680).  -/
noncomputable def evecsFromGenSchur (L : Xevc) (n : ℕ) (s q z : Arr ℝ)
    (select : Option (ℕ → Bool)) : Option (List Col × List Col) :=
  let (vl, vr, M) := L.run select
  if colsMM n s select = M then
    some (finishSide n s q vl select, finishSide n s z vr select)
  else none

/-! ## Specification -/

/-- The number of columns LAPACK uses for what ends at index `j`: one for a selected real
eigenvalue, two for a pair of which at least one is selected. -/
noncomputable def width (n : ℕ) (T : Arr ℝ) (sel : ℕ → Bool) (j : ℕ) : ℕ :=
  if j + 1 < n ∧ T (j + 1) j ≠ 0 then 0
  else if 0 < j ∧ T j (j - 1) ≠ 0 then (if sel (j - 1) || sel j then 2 else 0)
  else if sel j then 1 else 0

/-- The first column LAPACK uses for index `k`. -/
noncomputable def store (n : ℕ) (T : Arr ℝ) (sel : ℕ → Bool) (k : ℕ) : ℕ :=
  ∑ j ∈ Finset.range k, width n T sel j

/-- LAPACK's way to store (real) vectors with the property `P k` for index `k`: consecutively,
the real and the imaginary part of the vector of a pair in two consecutive columns,
the vector being that of the eigenvalue with positive imaginary part. -/
structure Packed (n : ℕ) (T : Arr ℝ) (sel : ℕ → Bool) (P : ℕ → Col → Prop) (v : Arr ℝ) : Prop where
  single : ∀ k, k < n → sel k = true → (k + 1 < n → T (k + 1) k = 0) →
    (∀ j, j + 1 = k → T k j = 0) → P k (fun r => (v r (store n T sel k) : ℂ))
  pair : ∀ i, i + 1 < n → T (i + 1) i ≠ 0 → (sel i = true ∨ sel (i + 1) = true) →
    P i (fun r => v r (store n T sel i) + Complex.I * v r (store n T sel i + 1))

/-- The first `n` numbers of a column as a vector. -/
def Col.vec (n : ℕ) (x : Col) : Fin n → ℂ := fun r => x r

/-- A right eigenvector of the (real) matrix `A` for `w`. -/
def RightEig {n : ℕ} (A : Matrix (Fin n) (Fin n) ℝ) (w : ℂ) (x : Col) : Prop :=
  Col.vec n x ≠ 0 ∧ A.map (fun x : ℝ => (x : ℂ)) *ᵥ Col.vec n x = w • Col.vec n x

/-- A left eigenvector: `x^dagger A = w x^dagger`. -/
def LeftEig {n : ℕ} (A : Matrix (Fin n) (Fin n) ℝ) (w : ℂ) (x : Col) : Prop :=
  Col.vec n x ≠ 0 ∧ star (Col.vec n x) ᵥ* A.map (fun x : ℝ => (x : ℂ)) = w • star (Col.vec n x)

/-- A right eigenvector of the pencil `(A, B)` for the eigenvalue `alpha / beta`. -/
def RightGEig {n : ℕ} (A B : Matrix (Fin n) (Fin n) ℝ) (alpha beta : ℂ) (x : Col) : Prop :=
  Col.vec n x ≠ 0 ∧ beta • (A.map (fun x : ℝ => (x : ℂ)) *ᵥ Col.vec n x) =
    alpha • (B.map (fun x : ℝ => (x : ℂ)) *ᵥ Col.vec n x)

/-- A left eigenvector of the pencil. -/
def LeftGEig {n : ℕ} (A B : Matrix (Fin n) (Fin n) ℝ) (alpha beta : ℂ) (x : Col) : Prop :=
  Col.vec n x ≠ 0 ∧ beta • (star (Col.vec n x) ᵥ* A.map (fun x : ℝ => (x : ℂ))) =
    alpha • (star (Col.vec n x) ᵥ* B.map (fun x : ℝ => (x : ℂ)))

/-- What LAPACK documents for `xTREVC` called for the Schur form `t` with eigenvalues
`w`: with a selection the vectors of `t`, without one those of `q t q^T`. -/
structure TrevcOK (n : ℕ) (t q : Arr ℝ) (w : ℕ → ℂ) (L : Xevc) : Prop where
  left_sel : ∀ sel, Packed n t sel (fun k => LeftEig (mat n t) (w k)) (L.run (some sel)).1
  right_sel : ∀ sel, Packed n t sel (fun k => RightEig (mat n t) (w k)) (L.run (some sel)).2.1
  num_sel : ∀ sel, (L.run (some sel)).2.2 = store n t sel n
  left_all : Packed n t (fun _ => true)
    (fun k => LeftEig (mat n q * mat n t * (mat n q)ᵀ) (w k)) (L.run none).1
  right_all : Packed n t (fun _ => true)
    (fun k => RightEig (mat n q * mat n t * (mat n q)ᵀ) (w k)) (L.run none).2.1
  num_all : (L.run none).2.2 = store n t (fun _ => true) n

/-- What LAPACK documents for `xTGEVC`. -/
structure TgevcOK (n : ℕ) (s t q z : Arr ℝ) (alpha beta : ℕ → ℂ) (L : Xevc) : Prop where
  left_sel : ∀ sel, Packed n s sel (fun k => LeftGEig (mat n s) (mat n t) (alpha k) (beta k))
    (L.run (some sel)).1
  right_sel : ∀ sel, Packed n s sel (fun k => RightGEig (mat n s) (mat n t) (alpha k) (beta k))
    (L.run (some sel)).2.1
  num_sel : ∀ sel, (L.run (some sel)).2.2 = store n s sel n
  left_all : Packed n s (fun _ => true)
    (fun k => LeftGEig (mat n q * mat n s * (mat n z)ᵀ) (mat n q * mat n t * (mat n z)ᵀ)
      (alpha k) (beta k)) (L.run none).1
  right_all : Packed n s (fun _ => true)
    (fun k => RightGEig (mat n q * mat n s * (mat n z)ᵀ) (mat n q * mat n t * (mat n z)ᵀ)
      (alpha k) (beta k)) (L.run none).2.1
  num_all : (L.run none).2.2 = store n s (fun _ => true) n

/-! ## Bookkeeping -/

variable {n : ℕ} {T : Arr ℝ} {sel : ℕ → Bool}

theorem store_succ (k : ℕ) : store n T sel (k + 1) = store n T sel k + width n T sel k := by
  simp [store, Finset.sum_range_succ]

/-- The state of the loop after all selected indices below `k`. -/
noncomputable def loopTo (n : ℕ) (T v : Arr ℝ) (sel : ℕ → Bool) (k : ℕ) : ℕ × List Col :=
  ((List.range k).filter sel).foldl (postStep n T v sel) (0, [])

theorem loopTo_succ (v : Arr ℝ) (k : ℕ) : loopTo n T v sel (k + 1) =
    if sel k then postStep n T v sel (loopTo n T v sel k) k else loopTo n T v sel k := by
  unfold loopTo
  rw [List.range_succ, List.filter_append, List.foldl_append]
  by_cases h : sel k <;> simp [h]

/-- The extra two columns the counter has skipped while in the middle of a pair. -/
noncomputable def extra (n : ℕ) (T : Arr ℝ) (sel : ℕ → Bool) (k : ℕ) : ℕ :=
  if 0 < k ∧ k < n ∧ T k (k - 1) ≠ 0 ∧ sel (k - 1) = true ∧ sel k = false then 2 else 0

theorem loop_inv (ap : ∀ i, i + 2 < n → T (i + 1) i ≠ 0 → T (i + 2) (i + 1) = 0)
    {P : ℕ → Col → Prop} {v : Arr ℝ} (hP : Packed n T sel P v)
    (hc : ∀ i x, i + 1 < n → T (i + 1) i ≠ 0 → P i x → P (i + 1) (fun r => (starRingEnd ℂ) (x r)))
    (k : ℕ) (hk : k ≤ n) :
    (loopTo n T v sel k).1 = store n T sel k + extra n T sel k ∧
    List.Forall₂ P ((List.range k).filter sel) (loopTo n T v sel k).2 := by
  induction k with
  | zero => simp [loopTo, store, extra]
  | succ k ih =>
    obtain ⟨e, F⟩ := ih (by omega)
    have snoc : ∀ x, sel k = true → P k x →
        List.Forall₂ P ((List.range (k + 1)).filter sel) ((loopTo n T v sel k).2 ++ [x]) := by
      intro x h1 h2
      rw [List.range_succ, List.filter_append]
      have : List.filter sel [k] = [k] := by simp [h1]
      rw [this]
      exact List.rel_append F (List.Forall₂.cons h2 List.Forall₂.nil)
    have skip : sel k = false →
        List.Forall₂ P ((List.range (k + 1)).filter sel) (loopTo n T v sel k).2 := by
      intro h1
      rw [List.range_succ, List.filter_append]
      have : List.filter sel [k] = [] := by simp [h1]
      rw [this, List.append_nil]
      exact F
    by_cases h1 : k + 1 < n ∧ T (k + 1) k ≠ 0
    · -- first of a pair
      have nb : ¬ (0 < k ∧ k < n ∧ T k (k - 1) ≠ 0 ∧ sel (k - 1) = true ∧ sel k = false) := by
        rintro ⟨a, b, c, _⟩
        obtain ⟨j, rfl⟩ : ∃ j, k = j + 1 := ⟨k - 1, by omega⟩
        exact h1.2 (ap j h1.1 c)
      have e0 : extra n T sel k = 0 := by simp only [extra, if_neg nb]
      have w0 : width n T sel k = 0 := by simp only [width, if_pos h1]
      rw [loopTo_succ, store_succ, w0]
      cases hs : sel k with
      | true =>
        simp only [if_true]
        have ps : postStep n T v sel (loopTo n T v sel k) k =
            (if sel (k + 1) then (loopTo n T v sel k).1 else (loopTo n T v sel k).1 + 2,
              (loopTo n T v sel k).2 ++ [fun r => v r (loopTo n T v sel k).1 +
                Complex.I * v r ((loopTo n T v sel k).1 + 1)]) := by
          simp only [postStep, if_pos h1]
        rw [ps]
        refine ⟨?_, snoc _ hs ?_⟩
        · simp only [e, e0]
          cases hs1 : sel (k + 1) <;> simp [extra, h1.1, h1.2, hs, hs1]
        · rw [e, e0]
          exact hP.pair k h1.1 h1.2 (Or.inl hs)
      | false =>
        refine ⟨?_, skip hs⟩
        have : extra n T sel (k + 1) = 0 := by simp [extra, hs]
        rw [this]
        simpa [e0] using e
    · by_cases h2 : 0 < k ∧ T k (k - 1) ≠ 0
      · -- second of a pair
        obtain ⟨j, rfl⟩ : ∃ j, k = j + 1 := ⟨k - 1, by omega⟩
        simp only [Nat.add_sub_cancel] at h2
        have w2 : width n T sel (j + 1) = if sel j || sel (j + 1) then 2 else 0 := by
          simp only [width, if_neg h1, Nat.add_sub_cancel]
          rw [if_pos h2]
        have wj : width n T sel j = 0 := by
          simp only [width]
          rw [if_pos ⟨by omega, h2.2⟩]
        have sj : store n T sel (j + 1) = store n T sel j := by rw [store_succ, wj, add_zero]
        have e2 : extra n T sel (j + 1 + 1) = 0 := by
          simp only [extra]
          apply if_neg
          rintro ⟨_, a, b, _⟩
          exact h1 ⟨a, b⟩
        rw [loopTo_succ, store_succ, w2, e2]
        cases hs : sel (j + 1) with
        | true =>
          have e0 : extra n T sel (j + 1) = 0 := by simp [extra, hs]
          simp only [if_true]
          have ps : postStep n T v sel (loopTo n T v sel (j + 1)) (j + 1) =
              ((loopTo n T v sel (j + 1)).1 + 2,
                (loopTo n T v sel (j + 1)).2 ++ [fun r => v r (loopTo n T v sel (j + 1)).1 -
                  Complex.I * v r ((loopTo n T v sel (j + 1)).1 + 1)]) := by
            simp only [postStep, if_neg h1, Nat.add_sub_cancel]
            rw [if_pos h2]
          rw [ps]
          refine ⟨?_, snoc _ hs ?_⟩
          · simp [e, e0]
          · rw [e, e0, add_zero, sj]
            have := hc j _ (by omega) h2.2 (hP.pair j (by omega) h2.2 (Or.inr hs))
            simpa [sub_eq_add_neg] using this
        | false =>
          refine ⟨?_, skip hs⟩
          simp only [Bool.or_false]
          cases hs' : sel j with
          | true =>
            have e0 : extra n T sel (j + 1) = 2 := by
              simp only [extra, Nat.add_sub_cancel]
              rw [if_pos ⟨by omega, by omega, h2.2, hs', hs⟩]
            simp [e, e0]
          | false =>
            have e0 : extra n T sel (j + 1) = 0 := by simp [extra, hs']
            simp [e, e0]
      · -- real eigenvalue
        have e0 : extra n T sel k = 0 := by
          simp only [extra]
          apply if_neg
          rintro ⟨a, _, b, _⟩
          exact h2 ⟨a, b⟩
        have e2 : extra n T sel (k + 1) = 0 := by
          simp only [extra]
          apply if_neg
          rintro ⟨_, a, b, _⟩
          exact h1 ⟨a, b⟩
        have w1 : width n T sel k = if sel k then 1 else 0 := by
          simp only [width, if_neg h1, if_neg h2]
        rw [loopTo_succ, store_succ, w1, e2]
        cases hs : sel k with
        | true =>
          simp only [if_true]
          have ps : postStep n T v sel (loopTo n T v sel k) k =
              ((loopTo n T v sel k).1 + 1,
                (loopTo n T v sel k).2 ++ [fun r => (v r (loopTo n T v sel k).1 : ℂ)]) := by
            simp only [postStep, if_neg h1, if_neg h2]
          rw [ps]
          refine ⟨?_, snoc _ hs ?_⟩
          · simp only [e, e0, add_zero]
          · rw [e, e0, add_zero]
            apply hP.single k (by omega) hs
            · intro hh
              by_contra hx
              exact h1 ⟨hh, hx⟩
            · intro j hj
              subst hj
              by_contra hx
              exact h2 ⟨by omega, hx⟩
        | false =>
          refine ⟨?_, skip hs⟩
          simp [e, e0]

/-- The postprocessing gives, for the selected indices in order, vectors with the
property wanted. -/
theorem postprocess_ok (ap : ∀ i, i + 2 < n → T (i + 1) i ≠ 0 → T (i + 2) (i + 1) = 0)
    {P : ℕ → Col → Prop} {v : Arr ℝ} (select : Option (ℕ → Bool))
    (hP : Packed n T (selOf select) P v)
    (hc : ∀ i x, i + 1 < n → T (i + 1) i ≠ 0 → P i x → P (i + 1) (fun r => (starRingEnd ℂ) (x r))) :
    List.Forall₂ P ((List.range n).filter (selOf select)) (postprocess n T v select) :=
  (loop_inv ap hP hc n le_rfl).2

theorem store_all (ap : ∀ i, i + 2 < n → T (i + 1) i ≠ 0 → T (i + 2) (i + 1) = 0) (sel : ℕ → Bool)
    (k : ℕ) (hk : k ≤ n) :
    store n T sel k + (if 0 < k ∧ k < n ∧ T k (k - 1) ≠ 0 ∧ sel (k - 1) = true then 1 else 0) =
      ((List.range k).filter sel).length +
      ((List.range (k - 1)).filter (fun i => decide (T (i + 1) i ≠ 0) &&
        (sel i != sel (i + 1)))).length := by
  induction k with
  | zero => simp [store]
  | succ k ih =>
    have ih := ih (by omega)
    have c1 : ((List.range (k + 1)).filter sel).length =
        ((List.range k).filter sel).length + (if sel k then 1 else 0) := by
      rw [List.range_succ, List.filter_append, List.length_append]
      cases h : sel k <;> simp [h]
    rw [store_succ, c1]
    rcases Nat.eq_zero_or_pos k with h0 | h0
    · subst h0
      simp only [store, Finset.range_zero, Finset.sum_empty, zero_add, List.range_zero,
        List.filter_nil, List.length_nil, Nat.sub_self, Nat.add_sub_cancel]
      by_cases h1 : 1 < n ∧ T 1 0 ≠ 0
      · cases hs : sel 0 <;> simp [width, h1.1, h1.2]
      · have w : width n T sel 0 = if sel 0 then 1 else 0 := by
          simp only [width]
          rw [if_neg h1, if_neg (by simp)]
        rw [w]
        have : ¬ (0 < 0 + 1 ∧ 1 < n ∧ T 1 0 ≠ 0 ∧ sel 0 = true) := by
          rintro ⟨_, a, b, _⟩
          exact h1 ⟨a, b⟩
        simp
        intro a b
        exact absurd ⟨a, b⟩ h1
    · obtain ⟨j, rfl⟩ : ∃ j, k = j + 1 := ⟨k - 1, by omega⟩
      simp only [Nat.add_sub_cancel] at ih ⊢
      have c2 : ((List.range (j + 1)).filter (fun i => decide (T (i + 1) i ≠ 0) &&
          (sel i != sel (i + 1)))).length =
          ((List.range j).filter (fun i => decide (T (i + 1) i ≠ 0) &&
          (sel i != sel (i + 1)))).length +
          (if T (j + 1) j ≠ 0 ∧ sel j ≠ sel (j + 1) then 1 else 0) := by
        rw [List.range_succ, List.filter_append, List.length_append]
        by_cases h : T (j + 1) j ≠ 0 ∧ sel j ≠ sel (j + 1)
        · rw [if_pos h]
          simp [h.1, h.2]
        · rw [if_neg h]
          have : (decide (T (j + 1) j ≠ 0) && (sel j != sel (j + 1))) = false := by
            by_contra hx
            simp at hx
            exact h hx
          rw [List.filter_cons_of_neg (by rw [this]; simp)]
          simp
      rw [c2]
      by_cases h1 : j + 1 + 1 < n ∧ T (j + 1 + 1) (j + 1) ≠ 0
      · have z : T (j + 1) j = 0 := by
          by_contra hx
          exact h1.2 (ap j h1.1 hx)
        have w : width n T sel (j + 1) = 0 := by simp only [width, if_pos h1]
        rw [w]
        simp only [z, ne_eq, not_true_eq_false, false_and, and_false, if_false, add_zero] at ih ⊢
        rw [ih]
        simp only [h1.1, h1.2, ne_eq, not_false_eq_true, true_and]
        cases hs : sel (j + 1) <;> simp
        omega
      · have f : ¬ (0 < j + 1 + 1 ∧ j + 1 + 1 < n ∧ T (j + 1 + 1) (j + 1) ≠ 0 ∧ sel (j + 1) = true) := by
          rintro ⟨_, a, b, _⟩
          exact h1 ⟨a, b⟩
        rw [if_neg f]
        by_cases z : T (j + 1) j = 0
        · have w : width n T sel (j + 1) = if sel (j + 1) then 1 else 0 := by
            simp only [width, if_neg h1, Nat.add_sub_cancel]
            rw [if_neg (by simp [z])]
          rw [w]
          simp only [z, ne_eq, not_true_eq_false, false_and, and_false, if_false, add_zero] at ih ⊢
          omega
        · have w : width n T sel (j + 1) = if sel j || sel (j + 1) then 2 else 0 := by
            simp only [width, if_neg h1, Nat.add_sub_cancel]
            rw [if_pos ⟨by omega, z⟩]
          rw [w]
          have hl : j + 1 < n := by omega
          cases hs : sel j <;> cases hs' : sel (j + 1) <;>
            simp [z, hs, hs', hl] at ih ⊢ <;> omega

/-- The number of columns provided is the number of columns used. -/
theorem colsMM_eq (ap : ∀ i, i + 2 < n → T (i + 1) i ≠ 0 → T (i + 2) (i + 1) = 0)
    (select : Option (ℕ → Bool)) : colsMM n T select = store n T (selOf select) n := by
  have h := store_all ap (selOf select) n le_rfl
  have f : ¬ (0 < n ∧ n < n ∧ T n (n - 1) ≠ 0 ∧ (selOf select) (n - 1) = true) := by
    rintro ⟨_, a, _⟩
    omega
  rw [if_neg f, add_zero] at h
  cases select with
  | none =>
    rw [h]
    simp [colsMM, selOf]
  | some sel =>
    rw [h]
    simp only [colsMM, selOf, Option.getD_some, blockpos, List.filter_filter]
    congr 2
    apply List.filter_congr
    intro i _
    rw [Bool.and_comm]

/-- Without blocks the postprocessing would change nothing. -/
theorem postprocess_plain (h : blockpos n T = []) (v : Arr ℝ) (select : Option (ℕ → Bool)) :
    postprocess n T v select =
      (List.range ((List.range n).filter (selOf select)).length).map (fun m r => (v r m : ℂ)) := by
  have nb : ∀ i, i + 1 < n → T (i + 1) i = 0 := by
    intro i hi
    by_contra hx
    have := (mem_blockpos (n := n) (t := T)).mpr ⟨hi, hx⟩
    rw [h] at this
    simp at this
  have gen : ∀ (l : List ℕ) (st : ℕ × List Col), (∀ k ∈ l, k < n) →
      l.foldl (postStep n T v (selOf select)) st =
        (st.1 + l.length, st.2 ++ (List.range l.length).map (fun m r => (v r (st.1 + m) : ℂ))) := by
    intro l
    induction l with
    | nil => intro st _; simp
    | cons a l ih =>
      intro st hl
      have ha := hl a (by simp)
      have s1 : ¬ (a + 1 < n ∧ T (a + 1) a ≠ 0) := by
        rintro ⟨x, y⟩
        exact y (nb a x)
      have s2 : ¬ (0 < a ∧ T a (a - 1) ≠ 0) := by
        rintro ⟨x, y⟩
        obtain ⟨j, rfl⟩ : ∃ j, a = j + 1 := ⟨a - 1, by omega⟩
        exact y (nb j ha)
      have ps : postStep n T v (selOf select) st a =
          (st.1 + 1, st.2 ++ [fun r => (v r st.1 : ℂ)]) := by
        simp only [postStep, if_neg s1, if_neg s2]
      rw [List.foldl_cons, ps, ih _ (fun k hk => hl k (by simp [hk]))]
      simp only [List.length_cons, Prod.mk.injEq, List.append_assoc, List.append_cancel_left_eq]
      refine ⟨by omega, ?_⟩
      rw [List.range_succ_eq_map]
      simp only [List.map_cons, List.map_map, List.singleton_append, add_zero, List.cons.injEq,
        true_and]
      apply List.map_congr_left
      intro m _
      funext r
      have : st.1 + 1 + m = st.1 + (m + 1) := by omega
      simp [Function.comp, this]
  unfold postprocess
  rw [gen _ _ (fun k hk => by simp at hk; exact hk.1)]
  simp

/-- One side: vectors for the selected indices in order. -/
theorem finishSide_ok (ap : ∀ i, i + 2 < n → T (i + 1) i ≠ 0 → T (i + 2) (i + 1) = 0)
    {P : ℕ → Col → Prop} {q v : Arr ℝ} (select : Option (ℕ → Bool))
    (hP : Packed n T (selOf select) P (if select.isSome then dotA n q v else v))
    (hc : ∀ i x, i + 1 < n → T (i + 1) i ≠ 0 → P i x → P (i + 1) (fun r => (starRingEnd ℂ) (x r))) :
    List.Forall₂ P ((List.range n).filter (selOf select)) (finishSide n T q v select) := by
  have h := postprocess_ok ap select hP hc
  unfold finishSide
  by_cases hb : (blockpos n T).isEmpty
  · rw [if_pos hb]
    have hb' : blockpos n T = [] := by simpa using hb
    rw [postprocess_plain hb'] at h
    have : colsMM n T select = ((List.range n).filter (selOf select)).length := by
      cases select with
      | none => simp [colsMM, selOf]
      | some sel => simp [colsMM, selOf, hb']
    rw [this]
    exact h
  · rw [if_neg hb]
    exact h

end Kwant.Schur
