import Verif.Physics.ConsLaw

/-!
C185: the projectors that are derived from a conservation law.
-/

set_option linter.unusedSectionVars false

namespace Kwant.ConsLaw
open Matrix Complex Kwant.DiscSym

variable {n : ℕ}

/-! ### Specification -/

/-- The projectors `ps` decompose the space into eigenspaces of `Q`: the nonzero columns of the k-th one are eigenvectors whose eigenvalues round to
`charges[k]`, the charges ascend and are those that occur, and all the columns together are an orthonormal basis. -/
structure Decomposes (Q : Mat n) (rnd : ℝ → ℤ) (charges : List ℤ) (ps : List (Proj n)) : Prop where
  length : ps.length = charges.length
  ascending : charges.Pairwise (· < ·)
  occur : ∀ z, z ∈ charges ↔ ∃ x, IsEig Q x ∧ rnd x = z
  unitary : StackUnitary (ps.map dropZero)
  eigvec : ∀ (k : ℕ) (z : ℤ) (p : Proj n), charges[k]? = some z → ps[k]? = some p → ∀ v ∈ p, v ≠ 0 → ∃ x : ℝ, Q *ᵥ v = (x : ℂ) • v ∧ rnd x = z

/-! ### Proofs -/

/-- The label that belongs to a charge. -/
def lab (z : ℤ) : ℚ ×ₗ ℚ := toLex ((z : ℚ) + 1 / 2, 0)

theorem lab_lt {a b : ℤ} (h : a < b) : lab a < lab b := by
  unfold lab
  rw [Prod.Lex.toLex_lt_toLex]
  left
  have : (a : ℚ) < b := by exact_mod_cast h
  simpa using this

theorem lab_inj {a b : ℤ} (h : lab a = lab b) : a = b := by
  rcases lt_trichotomy a b with h1 | h1 | h1
  · exact absurd h (lab_lt h1).ne
  · exact h1
  · exact absurd h (lab_lt h1).ne'

theorem lab_ne (z : ℤ) : lab z ≠ toLex (0, 0) := by
  intro h
  have h1 := congrArg (fun p => (ofLex p).1) h
  have h2 : (z : ℚ) + 1 / 2 = 0 := h1
  have h3 : (2 * z + 1 : ℚ) = 0 := by linarith
  have h4 : 2 * z + 1 = 0 := by exact_mod_cast h3
  omega

theorem rnd_int {N : Num} (hN : NumOk N) (z : ℤ) : N.rnd z = z := by
  have h := hN.round z
  have h1 : |((z - N.rnd z : ℤ) : ℝ)| ≤ 1 / 2 := by push_cast; exact h
  have h2 : |z - N.rnd z| < 1 := by
    have : ((|z - N.rnd z| : ℤ) : ℝ) < 1 := by push_cast at h1 ⊢; linarith
    exact_mod_cast this
  have h3 : z - N.rnd z = 0 := Int.abs_lt_one_iff.mp h2
  omega

theorem rnd_zero {N : Num} (hN : NumOk N) : N.rnd 0 = 0 := by
  have := rnd_int hN 0
  simpa using this

theorem entry_diag {N : Num} (hN : NumOk N) (w : Fin n → ℝ) (a b : Fin n) :
    entry N (diagonal fun a => (w a : ℂ)) a b = if a = b then lab (N.rnd (w a)) else toLex (0, 0) := by
  unfold entry
  by_cases h : a = b
  · subst h
    rw [if_pos rfl, if_pos rfl, diagonal_apply_eq, ofReal_re, ofReal_im, rnd_zero hN]
    simp [lab]
  · rw [if_neg h, if_neg h, diagonal_apply_ne _ h]
    simp [rnd_zero hN]

/-- The charges. -/
def chargeList (N : Num) (w : Fin n → ℝ) : List ℤ := (Finset.univ.image fun a => N.rnd (w a)).sort (· ≤ ·)

theorem chargeList_lt (N : Num) (w : Fin n → ℝ) : (chargeList N w).Pairwise (· < ·) := by
  have h1 := Finset.pairwise_sort (Finset.univ.image fun a => N.rnd (w a)) (· ≤ ·)
  have h2 := Finset.sort_nodup (Finset.univ.image fun a => N.rnd (w a)) (· ≤ ·)
  exact (h1.and h2).imp fun h => lt_of_le_of_ne h.1 h.2

theorem mem_chargeList {N : Num} {w : Fin n → ℝ} {z : ℤ} : z ∈ chargeList N w ↔ ∃ a, N.rnd (w a) = z := by
  unfold chargeList
  rw [Finset.mem_sort]
  simp

theorem labels_eq {N : Num} (hN : NumOk N) (w : Fin n → ℝ) : labels N (diagonal fun a => (w a : ℂ)) = (chargeList N w).map lab := by
  have hp : ((chargeList N w).map lab).Pairwise (· < ·) := by
    rw [List.pairwise_map]
    exact (chargeList_lt N w).imp lab_lt
  have hf : ((Finset.univ.image fun p : Fin n × Fin n => entry N (diagonal fun a => (w a : ℂ)) p.1 p.2).filter (· ≠ toLex (0, 0))) = ((chargeList N w).map lab).toFinset := by
    ext l
    simp only [Finset.mem_filter, Finset.mem_image, Finset.mem_univ, true_and, List.mem_toFinset, List.mem_map, mem_chargeList, Prod.exists, entry_diag hN]
    constructor
    · rintro ⟨⟨a, b, h⟩, hne⟩
      by_cases hab : a = b
      · rw [if_pos hab] at h
        exact ⟨_, ⟨a, rfl⟩, h⟩
      · rw [if_neg hab] at h
        exact absurd h.symm hne
    · rintro ⟨z, ⟨a, rfl⟩, rfl⟩
      exact ⟨⟨a, a, by rw [if_pos rfl]⟩, lab_ne _⟩
  unfold labels
  rw [hf]
  exact (List.toFinset_sort (· ≤ ·) (hp.imp fun h => h.ne)).mpr (hp.imp fun h => h.le)

theorem projector_eq {N : Num} (hN : NumOk N) (w : Fin n → ℝ) (V : Mat n) (z : ℤ) :
    projector N (diagonal fun a => (w a : ℂ)) V (lab z) = (List.finRange n).map fun b => if N.rnd (w b) = z then V.col b else 0 := by
  unfold projector
  refine List.map_congr_left fun b _ => ?_
  funext a
  rw [mul_apply, Finset.sum_eq_single b]
  · rw [of_apply, entry_diag hN, if_pos rfl]
    by_cases h : N.rnd (w b) = z
    · rw [if_pos (by rw [h]), if_pos h, mul_one]; rfl
    · rw [if_neg (fun e => h (lab_inj e)), if_neg h, mul_zero]; rfl
  · intro c _ hc
    rw [of_apply, entry_diag hN, if_neg hc, if_neg (fun e => lab_ne z e.symm), mul_zero]
  · intro h; exact absurd (Finset.mem_univ _) h

theorem col_dot {V : Mat n} (hV : Vᴴ * V = 1) (a b : Fin n) : star (V.col a) ⬝ᵥ V.col b = if a = b then 1 else 0 := by
  have := congrFun (congrFun hV a) b
  rw [mul_apply, one_apply] at this
  rw [← this]
  rfl

theorem col_ne {V : Mat n} (hV : Vᴴ * V = 1) (a : Fin n) : V.col a ≠ 0 := by
  intro h
  have := col_dot hV a a
  rw [h, if_pos rfl, dotProduct_zero] at this
  exact zero_ne_one this

theorem dropZero_projector {N : Num} (hN : NumOk N) (w : Fin n → ℝ) {V : Mat n} (hV : Vᴴ * V = 1) (z : ℤ) :
    dropZero (projector N (diagonal fun a => (w a : ℂ)) V (lab z)) = ((List.finRange n).filter fun b => decide (N.rnd (w b) = z)).map V.col := by
  rw [projector_eq hN]
  unfold dropZero
  rw [List.filter_map]
  rw [List.filter_congr (q := fun b => decide (N.rnd (w b) = z)) fun b _ => ?_]
  · refine List.map_congr_left fun b hb => ?_
    have := (List.mem_filter.mp hb).2
    rw [if_pos (by simpa using this)]
  · by_cases h : N.rnd (w b) = z
    · simp [h, col_ne hV b]
    · simp [h]

/-- The indices of all columns, charge by charge. -/
def order (N : Num) (w : Fin n → ℝ) : List (Fin n) := ((chargeList N w).map fun z => (List.finRange n).filter fun b => decide (N.rnd (w b) = z)).flatten

theorem order_nodup (N : Num) (w : Fin n → ℝ) : (order N w).Nodup := by
  unfold order
  rw [List.nodup_flatten]
  refine ⟨?_, ?_⟩
  · intro l hl
    obtain ⟨z, -, rfl⟩ := List.mem_map.mp hl
    exact (List.nodup_finRange n).filter _
  · rw [List.pairwise_map]
    refine (chargeList_lt N w).imp fun {a b} hab => ?_
    intro c h1 h2
    have e1 := (List.mem_filter.mp h1).2
    have e2 := (List.mem_filter.mp h2).2
    simp only [decide_eq_true_eq] at e1 e2
    omega

theorem order_mem (N : Num) (w : Fin n → ℝ) (b : Fin n) : b ∈ order N w := by
  unfold order
  rw [List.mem_flatten]
  exact ⟨_, List.mem_map.mpr ⟨N.rnd (w b), mem_chargeList.mpr ⟨b, rfl⟩, rfl⟩, by simp⟩

theorem order_length (N : Num) (w : Fin n → ℝ) : (order N w).length = n := by
  have h1 : (order N w).toFinset = Finset.univ := by
    ext b
    simp [order_mem N w b]
  rw [← List.toFinset_card_of_nodup (order_nodup N w), h1, Finset.card_univ, Fintype.card_fin]

theorem flatten_eq {N : Num} (hN : NumOk N) (w : Fin n → ℝ) {V : Mat n} (hV : Vᴴ * V = 1) :
    ((((labels N (diagonal fun a => (w a : ℂ))).map (projector N (diagonal fun a => (w a : ℂ)) V)).map dropZero)).flatten = (order N w).map V.col := by
  rw [labels_eq hN, List.map_map, List.map_map, order, List.map_flatten, List.map_map]
  congr 1
  refine List.map_congr_left fun z _ => ?_
  exact dropZero_projector hN w hV z

theorem stack_ok {N : Num} (hN : NumOk N) (w : Fin n → ℝ) {V : Mat n} (hV : Vᴴ * V = 1) :
    StackUnitary (((labels N (diagonal fun a => (w a : ℂ))).map (projector N (diagonal fun a => (w a : ℂ)) V)).map dropZero) := by
  unfold StackUnitary
  rw [flatten_eq hN w hV]
  refine ⟨fun a b v v' hv hv' => ?_, by rw [List.length_map, order_length]⟩
  rw [List.getElem?_map, Option.map_eq_some_iff] at hv hv'
  obtain ⟨x, hx, rfl⟩ := hv
  obtain ⟨y, hy, rfl⟩ := hv'
  rw [col_dot hV]
  obtain ⟨ha, rfl⟩ := List.getElem?_eq_some_iff.mp hx
  obtain ⟨hb, rfl⟩ := List.getElem?_eq_some_iff.mp hy
  by_cases hab : a = b
  · subst hab
    rw [if_pos rfl, if_pos rfl]
  · rw [if_neg hab, if_neg]
    intro e
    exact hab ((order_nodup N w).getElem_inj_iff.mp e)

/-- The eigenvalues. -/
theorem isEig_iff {Q V : Mat n} {w : Fin n → ℝ} (hV : Vᴴ * V = 1) (hQ : Q * V = V * diagonal fun a => (w a : ℂ)) (x : ℝ) : IsEig Q x ↔ ∃ a, w a = x := by
  constructor
  · rintro ⟨v, hv, he⟩
    have hVV : V * Vᴴ = 1 := mul_eq_one_comm.mp hV
    have hc : V *ᵥ (Vᴴ *ᵥ v) = v := by rw [mulVec_mulVec, hVV, one_mulVec]
    have h1 : V *ᵥ (diagonal (fun a => (w a : ℂ)) *ᵥ (Vᴴ *ᵥ v)) = (x : ℂ) • v := by rw [mulVec_mulVec, ← hQ, ← mulVec_mulVec, hc, he]
    have h2 : diagonal (fun a => (w a : ℂ)) *ᵥ (Vᴴ *ᵥ v) = (x : ℂ) • (Vᴴ *ᵥ v) := by
      have := congrArg (fun u => Vᴴ *ᵥ u) h1
      rw [mulVec_mulVec, hV, one_mulVec, mulVec_smul] at this
      exact this
    by_contra hne
    push Not at hne
    apply hv
    rw [← hc]
    have : Vᴴ *ᵥ v = 0 := by
      funext a
      have := congrFun h2 a
      rw [mulVec_diagonal, Pi.smul_apply, smul_eq_mul] at this
      have h3 : ((w a : ℂ) - x) * (Vᴴ *ᵥ v) a = 0 := by rw [sub_mul, this, sub_self]
      rcases mul_eq_zero.mp h3 with h4 | h4
      · exact absurd (by exact_mod_cast sub_eq_zero.mp h4) (hne a)
      · exact h4
    rw [this, mulVec_zero]
  · rintro ⟨a, rfl⟩
    refine ⟨V.col a, col_ne hV a, ?_⟩
    funext i
    have := congrFun (congrFun hQ i) a
    rw [mul_diagonal] at this
    rw [Pi.smul_apply, smul_eq_mul, mul_comm]
    exact this

theorem col_eig {Q V : Mat n} {w : Fin n → ℝ} (hQ : Q * V = V * diagonal fun a => (w a : ℂ)) (a : Fin n) : Q *ᵥ V.col a = (w a : ℂ) • V.col a := by
  funext i
  have := congrFun (congrFun hQ i) a
  rw [mul_diagonal] at this
  rw [Pi.smul_apply, smul_eq_mul, mul_comm]
  exact this

theorem close_real {N : Num} (hN : NumOk N) (x : ℝ) : closeToRound N (x : ℂ) ↔ |x - N.rnd x| ≤ tol |(N.rnd x : ℝ)| := by
  unfold closeToRound
  rw [ofReal_re, ofReal_im, rnd_zero hN]
  have h1 : (x : ℂ) - ((N.rnd x : ℂ) + ((0 : ℤ) : ℂ) * I) = ((x - N.rnd x : ℝ) : ℂ) := by push_cast; ring
  have h2 : ((N.rnd x : ℂ) + ((0 : ℤ) : ℂ) * I) = ((N.rnd x : ℝ) : ℂ) := by push_cast; ring
  rw [h1, h2, Complex.norm_real, Complex.norm_real, Real.norm_eq_abs, Real.norm_eq_abs]

theorem close_all {N : Num} (hN : NumOk N) (w : Fin n → ℝ) :
    (∀ a b, closeToRound N ((diagonal fun a => (w a : ℂ)) a b)) ↔ ∀ a, |w a - N.rnd (w a)| ≤ tol |(N.rnd (w a) : ℝ)| := by
  constructor
  · intro h a
    have := h a a
    rwa [diagonal_apply_eq, close_real hN] at this
  · intro h a b
    by_cases hab : a = b
    · subst hab
      rw [diagonal_apply_eq, close_real hN]
      exact h a
    · rw [diagonal_apply_ne _ hab]
      have := (close_real hN 0).mpr (by rw [rnd_zero hN]; simp [tol]; norm_num)
      simpa using this

variable {m : ℕ} {norbs : Fin m → ℕ} {law : Law m} {q : ∀ i, Matrix (Fin (norbs i)) (Fin (norbs i)) ℂ}

/-- **C185**: `discrete_symmetry` refuses a conservation law, with "Conservation law must have integer eigenvalues", exactly if the operator has an eigenvalue that differs
from the nearest integer by more than the tolerance. -/
theorem C185_refused {N : Num} (hN : NumOk N) (h : IsLaw norbs law q) :
    (projectors N norbs law = .error .notInteger ↔ ∃ x, IsEig (blockDiag q) x ∧ 1e-8 + 1e-5 * |(N.rnd x : ℝ)| < |x - N.rnd x|) ∧ projectors N norbs law ≠ .error .bad := by
  obtain ⟨w, V, hV, hQ, h1, h2⟩ := operators hN h
  unfold projectors
  rw [h1, h2]
  simp only
  by_cases hc : ∀ a b, closeToRound N ((diagonal fun a => (w a : ℂ)) a b)
  · rw [if_neg (not_not.mpr hc)]
    rw [close_all hN] at hc
    refine ⟨⟨fun h => (by cases h), ?_⟩, fun h => (by cases h)⟩
    rintro ⟨x, hx, hl⟩
    obtain ⟨a, rfl⟩ := (isEig_iff hV hQ x).mp hx
    exact absurd (hc a) (not_le.mpr hl)
  · rw [if_pos hc]
    rw [close_all hN] at hc
    push Not at hc
    obtain ⟨a, ha⟩ := hc
    exact ⟨⟨fun _ => ⟨w a, (isEig_iff hV hQ _).mpr ⟨a, rfl⟩, ha⟩, fun _ => rfl⟩, by simp⟩

/-- **C185**: the projectors decompose the space into eigenspaces of the conservation law, in ascending order. -/
theorem C185_projectors {N : Num} (hN : NumOk N) (h : IsLaw norbs law q) {ps : List (Proj (∑ i, norbs i))} (hp : projectors N norbs law = .ok ps) :
    ∃ charges, Decomposes (blockDiag q) N.rnd charges ps := by
  obtain ⟨w, V, hV, hQ, h1, h2⟩ := operators hN h
  unfold projectors at hp
  rw [h1, h2] at hp
  simp only at hp
  split at hp
  · cases hp
  · obtain rfl := Except.ok.inj hp
    refine ⟨chargeList N w, by rw [labels_eq hN]; simp, chargeList_lt N w, fun z => ?_, stack_ok hN w hV, ?_⟩
    · rw [mem_chargeList]
      constructor
      · rintro ⟨a, rfl⟩
        exact ⟨w a, (isEig_iff hV hQ _).mpr ⟨a, rfl⟩, rfl⟩
      · rintro ⟨x, hx, rfl⟩
        obtain ⟨a, rfl⟩ := (isEig_iff hV hQ x).mp hx
        exact ⟨a, rfl⟩
    · intro k z p hk hpk v hv hne
      rw [labels_eq hN, List.map_map, List.getElem?_map, hk] at hpk
      obtain rfl := Option.some.inj hpk
      have hv' : v ∈ projector N (diagonal fun a => (w a : ℂ)) V (lab z) := hv
      rw [projector_eq hN, List.mem_map] at hv'
      obtain ⟨b, -, rfl⟩ := hv'
      by_cases hb : N.rnd (w b) = z
      · rw [if_pos hb]
        exact ⟨w b, col_eig hQ b, hb⟩
      · rw [if_neg hb] at hne
        exact absurd rfl hne

theorem tol_pos (x : ℝ) : 0 ≤ tol |x| := by
  unfold tol
  have := abs_nonneg x
  positivity

/-- **C185**: a conservation law with integer eigenvalues is accepted, and the blocks are its eigenspaces: the columns of the k-th projector are eigenvectors
with the eigenvalue `charges[k]`, which are the eigenvalues of the operator in ascending order. -/
theorem C185_integer {N : Num} (hN : NumOk N) (h : IsLaw norbs law q) (hi : ∀ x, IsEig (blockDiag q) x → ∃ z : ℤ, x = z) :
    ∃ ps charges, projectors N norbs law = .ok ps ∧ Decomposes (blockDiag q) N.rnd charges ps ∧ (∀ z : ℤ, z ∈ charges ↔ IsEig (blockDiag q) z) ∧
      ∀ (k : ℕ) (z : ℤ) (p : Proj (∑ i, norbs i)), charges[k]? = some z → ps[k]? = some p → ∀ v ∈ p, blockDiag q *ᵥ v = (z : ℂ) • v := by
  cases hp : projectors N norbs law with
  | error e =>
    cases e with
    | bad => exact absurd hp (C185_refused hN h).2
    | notInteger =>
      obtain ⟨x, hx, hl⟩ := (C185_refused hN h).1.mp hp
      obtain ⟨z, rfl⟩ := hi x hx
      rw [rnd_int hN, sub_self, abs_zero] at hl
      exact absurd hl (not_lt.mpr (tol_pos _))
  | ok ps =>
    obtain ⟨charges, hd⟩ := C185_projectors hN h hp
    refine ⟨ps, charges, rfl, hd, fun z => ?_, fun k z p hk hpk v hv => ?_⟩
    · rw [hd.occur]
      constructor
      · rintro ⟨x, hx, hr⟩
        obtain ⟨y, rfl⟩ := hi x hx
        rw [rnd_int hN] at hr
        rw [← hr]; exact hx
      · intro hx
        exact ⟨z, hx, rnd_int hN z⟩
    · by_cases hne : v = 0
      · rw [hne, mulVec_zero, smul_zero]
      · obtain ⟨x, hx, hr⟩ := hd.eigvec k z p hk hpk v hv hne
        obtain ⟨y, rfl⟩ := hi x ⟨v, hne, hx⟩
        rw [rnd_int hN] at hr
        rw [hx, hr]
        push_cast; rfl

/-- **C185**: the constructor of `DiscreteSymmetry` accepts these projectors. -/
theorem C185_accepted {N : Num} (hN : NumOk N) (h : IsLaw norbs law q) {ps : List (Proj (∑ i, norbs i))} (hp : projectors N norbs law = .ok ps) :
    init (some ps) none none none = .ok ⟨some (ps.map dropZero), none, none, none⟩ := by
  obtain ⟨charges, hd⟩ := C185_projectors hN h hp
  have hu := hd.unitary
  have hs : ((ps.map dropZero).map full).sum = 1 := by
    rw [sum_full_eq, ← stack_mul]
    refine (mul_eq_one_comm_of_equiv (A := stack (ps.map dropZero).flatten) (B := (stack (ps.map dropZero).flatten)ᴴ) (finCongr hu.2.symm)).mpr ?_
    ext a b
    rw [mul_apply, one_apply]
    have := hu.1 a b _ _ (List.getElem?_eq_getElem a.2) (List.getElem?_eq_getElem b.2)
    simp only [Fin.ext_iff]
    rw [← this]
    rfl
  simp only [init, productBad, Bool.false_eq_true, if_false, complete, checkOne, checkProj, hs, not_true_eq_false, checkCanon, bind, Except.bind]

theorem blockDiag_isHerm (h : IsLaw norbs law q) : (blockDiag q)ᴴ = blockDiag q := by
  rw [blockDiag_herm]
  congr 1
  funext i
  exact h.herm i

/-- **C185**: every Hamiltonian that commutes with the conservation law has no matrix elements between different blocks. -/
theorem C185_blocks {N : Num} (hN : NumOk N) (h : IsLaw norbs law q) {ps : List (Proj (∑ i, norbs i))} (hp : projectors N norbs law = .ok ps)
    {H : Mat (∑ i, norbs i)} (hH : H * blockDiag q = blockDiag q * H) {j k : ℕ} (hjk : j ≠ k) {p p' : Proj (∑ i, norbs i)} (hj : ps[j]? = some p) (hk : ps[k]? = some p')
    {v v' : Fin (∑ i, norbs i) → ℂ} (hv : v ∈ p) (hv' : v' ∈ p') : star v ⬝ᵥ H *ᵥ v' = 0 := by
  obtain ⟨charges, hd⟩ := C185_projectors hN h hp
  by_cases h0 : v = 0
  · rw [h0, star_zero, zero_dotProduct]
  by_cases h0' : v' = 0
  · rw [h0', mulVec_zero, dotProduct_zero]
  have lj : j < charges.length := by rw [← hd.length]; exact (List.getElem?_eq_some_iff.mp hj).1
  have lk : k < charges.length := by rw [← hd.length]; exact (List.getElem?_eq_some_iff.mp hk).1
  obtain ⟨x, hx, rx⟩ := hd.eigvec j _ p (List.getElem?_eq_getElem lj) hj v hv h0
  obtain ⟨y, hy, ry⟩ := hd.eigvec k _ p' (List.getElem?_eq_getElem lk) hk v' hv' h0'
  have hxy : x ≠ y := by
    intro e
    rw [e, ry] at rx
    have hnd : charges.Nodup := hd.ascending.imp fun h => h.ne
    exact hjk ((hnd.getElem_inj_iff).mp rx).symm
  have e1 : star v ⬝ᵥ (blockDiag q * H) *ᵥ v' = (x : ℂ) * (star v ⬝ᵥ H *ᵥ v') := by
    rw [← mulVec_mulVec, dotProduct_mulVec, ← blockDiag_isHerm h, ← star_mulVec, hx, star_smul, smul_dotProduct, smul_eq_mul, star_def, conj_ofReal]
  have e2 : star v ⬝ᵥ (blockDiag q * H) *ᵥ v' = (y : ℂ) * (star v ⬝ᵥ H *ᵥ v') := by
    rw [← hH, ← mulVec_mulVec, hy, mulVec_smul, dotProduct_smul, smul_eq_mul]
  have e3 : ((x : ℂ) - y) * (star v ⬝ᵥ H *ᵥ v') = 0 := by rw [sub_mul, ← e1, ← e2, sub_self]
  rcases mul_eq_zero.mp e3 with e4 | e4
  · exact absurd (by exact_mod_cast sub_eq_zero.mp e4) hxy
  · exact e4

end Kwant.ConsLaw
