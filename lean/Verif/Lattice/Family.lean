import Verif.Lattice.Wire
import Verif.Lattice.Counter
import Verif.Builder.FillProps
import Mathlib.LinearAlgebra.LinearIndependent.BaseChange
import Mathlib.Topology.MetricSpace.HausdorffDistance
import Mathlib.Analysis.Normed.Module.FiniteDimension

/-!
C106, C107: kwant/lattice.py, `TranslationalSymmetry.add_site_family` (l.575-678), `subgroup` (l.546-557), `has_subgroup` (l.559-573).

Simplifications: exact real arithmetic, so that `np.allclose` is equality.  `np.dot(v, np.linalg.pinv(vecs))` is the solution of a least-squares problem
(contract `LsqOk`).  `np.linalg.matrix_rank(m) < num_vec` is linear dependence of the columns.  The norm of the part of a vector orthogonal to the row space (l.652-657,
by a singular value decomposition) is its distance from that space.  `argmax` is any function returning the index of a largest entry.  Calls with malformed arguments,
and with a family that has been processed before, are not modelled.
-/

set_option linter.unusedSectionVars false

namespace Kwant.Lat
open Kwant.LLL Kwant.Cvp Kwant.Voronoi

variable {E : Type*} [NormedAddCommGroup E] [InnerProductSpace ℝ E] {n k : ℕ}

/-- The test of `add_site_family` (l.622-626) and `has_subgroup` (l.568-573): the coefficients of all the vectors are integers and reproduce the vectors. -/
def integerCoefs (lsq : (Fin n → E) → E → Fin n → ℝ) (vecs : Fin n → E) (periods : Fin k → E) : Prop :=
  ∀ i, (∀ j, lsq vecs (periods i) j = (npRound (lsq vecs (periods i) j) : ℝ)) ∧ realPt vecs (lsq vecs (periods i)) = periods i

/-- The columns of `m` before the loop (l.640-644): the periods in the basis of the lattice, `other_vectors`, zeros. -/
noncomputable def columns0 (lsq : (Fin n → E) → E → Fin n → ℝ) (prim : Fin n → E) (periods : Fin k → E) (others : List (Fin n → ℤ)) (c : ℕ) : Fin n → ℤ :=
  if h : c < k then fun j => npRound (lsq prim (periods ⟨c, h⟩) j) else others.getD (c - k) 0

/-- `residuals` (l.652-657): the distances of the primitive vectors from the span of the first `p` columns. -/
noncomputable def residuals (prim : Fin n → E) (m : ℕ → Fin n → ℤ) (p : ℕ) (i : Fin n) : ℝ :=
  Metric.infDist (prim i) (Submodule.span ℝ (Set.range fun c : Fin p => latPt prim (m c)) : Set E)

/-- The body of the loop (l.651-659): `m[np.argmax(residuals), num_vec] = 1; num_vec += 1`. -/
noncomputable def fillStep (argmax : (Fin n → ℝ) → Fin n) (prim : Fin n → E) (s : ℕ × (ℕ → Fin n → ℤ)) : ℕ × (ℕ → Fin n → ℤ) :=
  (s.1 + 1, Function.update s.2 s.1 (Pi.single (argmax (residuals prim s.2 s.1)) 1))

/-- The loop (l.651-659) for `r = lat_dim - num_vec` iterations. -/
noncomputable def fillLoop (argmax : (Fin n → ℝ) → Fin n) (prim : Fin n → E) : ℕ → ℕ × (ℕ → Fin n → ℤ) → ℕ × (ℕ → Fin n → ℤ)
  | 0, s => s
  | r + 1, s => fillLoop argmax prim r (fillStep argmax prim s)

/-- Exceptions of `add_site_family`. -/
inductive FErr where
  /-- `ValueError`: no commensurate periods (l.622-629) -/
  | incommensurate
  /-- `ValueError` of the assignment of too many columns (l.642-644) -/
  | tooMany
  /-- `ValueError`: `other_vectors` and periods are not linearly independent (l.646-648) -/
  | dependent
  /-- `RuntimeError`: adding site family failed (l.662-663) -/
  | failed
  deriving DecidableEq

/-- The columns of `m` after the loop. -/
noncomputable def columns (argmax : (Fin n → ℝ) → Fin n) (prim : Fin n → E) (p : ℕ) (m : ℕ → Fin n → ℤ) : ℕ → Fin n → ℤ :=
  (fillLoop argmax prim (n - p) (p, m)).2

open Classical in
/-- `add_site_family(fam, other_vectors)` (l.575-678): the matrix `m`, from which all the cached data are computed (`FamData`). -/
noncomputable def addFamily (lsq : (Fin n → E) → E → Fin n → ℝ) (argmax : (Fin n → ℝ) → Fin n) (prim : Fin n → E) (periods : Fin k → E)
    (others : List (Fin n → ℤ)) : Except FErr (Matrix (Fin n) (Fin n) ℤ) :=
  if ¬ integerCoefs lsq prim periods then .error .incommensurate
  else if n < k + others.length then .error .tooMany
  else if ¬ LinearIndependent ℝ (fun c : Fin (k + others.length) => fun j => (columns0 lsq prim periods others c j : ℝ)) then .error .dependent
  else
    let m : Matrix (Fin n) (Fin n) ℤ := Matrix.of fun i c => columns argmax prim (k + others.length) (columns0 lsq prim periods others) c i
    if m.det = 0 then .error .failed else .ok m

open Classical in
/-- `has_subgroup(other)` for two translational symmetries of the same space (l.567-573). -/
noncomputable def hasSubgroup (lsq : (Fin n → E) → E → Fin n → ℝ) (periods : Fin n → E) (other : Fin k → E) : Bool := decide (integerCoefs lsq periods other)

open Classical in
/-- `subgroup(*generators)` (l.546-557) with the check of `__init__` (l.538-540): the new periods, `none` for the `ValueError` of linearly dependent periods. -/
noncomputable def subgroup (periods : Fin n → E) (generators : Fin k → Fin n → ℤ) : Option (Fin k → E) :=
  if LinearIndependent ℝ (fun i => latPt periods (generators i)) then some fun i => latPt periods (generators i) else none

/-! ### Integer coefficients -/

theorem lsq_of_mem {lsq : (Fin n → E) → E → Fin n → ℝ} (hl : LsqOk lsq) {vecs : Fin n → E} (hb : LinearIndependent ℝ vecs) (x : Fin n → ℝ) :
    lsq vecs (realPt vecs x) = x := by
  have h0 := hl vecs (realPt vecs x)
  set y := lsq vecs (realPt vecs x) with hy
  have e : realPt vecs x - realPt vecs y = realPt vecs (x - y) := by
    unfold realPt
    rw [← Finset.sum_sub_distrib]
    exact Finset.sum_congr rfl fun j _ => by rw [Pi.sub_apply, sub_smul]
  have hz : realPt vecs (x - y) = 0 := by
    rw [← inner_self_eq_zero (𝕜 := ℝ)]
    conv_lhs => rw [show realPt vecs (x - y) = ∑ j, (x - y) j • vecs j from rfl]
    rw [sum_inner]
    refine Finset.sum_eq_zero fun i _ => ?_
    rw [real_inner_smul_left]
    have := h0 i
    rw [e] at this
    show (x - y) i * inner ℝ (vecs i) (realPt vecs (x - y)) = 0
    rw [this, mul_zero]
  funext i
  exact (sub_eq_zero.mp (Fintype.linearIndependent_iff.mp hb (x - y) hz i)).symm

theorem latPt_real (vecs : Fin n → E) (z : Fin n → ℤ) : latPt vecs z = realPt vecs fun j => (z j : ℝ) := rfl

/-- The test means what it should. -/
theorem integerCoefs_iff {lsq : (Fin n → E) → E → Fin n → ℝ} (hl : LsqOk lsq) {vecs : Fin n → E} (hb : LinearIndependent ℝ vecs) (periods : Fin k → E) :
    integerCoefs lsq vecs periods ↔ ∀ i, ∃ z : Fin n → ℤ, periods i = latPt vecs z := by
  constructor
  · intro h i
    obtain ⟨h1, h2⟩ := h i
    refine ⟨fun j => npRound (lsq vecs (periods i) j), ?_⟩
    rw [latPt_real, ← h2]
    congr 1
    funext j
    rw [h2]
    exact h1 j
  · intro h i
    obtain ⟨z, hz⟩ := h i
    have e : lsq vecs (periods i) = fun j => (z j : ℝ) := by rw [hz, latPt_real, lsq_of_mem hl hb]
    rw [e]
    exact ⟨fun j => by rw [npRound_int], by rw [hz]; rfl⟩

theorem columns0_period {lsq : (Fin n → E) → E → Fin n → ℝ} {prim : Fin n → E} {periods : Fin k → E} (h : integerCoefs lsq prim periods) (others : List (Fin n → ℤ))
    (i : Fin k) : latPt prim (columns0 lsq prim periods others i) = periods i := by
  obtain ⟨h1, h2⟩ := h i
  unfold columns0
  rw [dif_pos i.isLt, latPt_real, ← h2]
  congr 1
  funext j
  rw [h2]
  exact (h1 j).symm

/-! ### The loop -/

theorem realPt_li {prim : Fin n → E} (hb : LinearIndependent ℝ prim) {ι : Type*} (v : ι → Fin n → ℝ) :
    LinearIndependent ℝ (fun c => realPt prim (v c)) ↔ LinearIndependent ℝ v := by
  have : (fun c => realPt prim (v c)) = (Fintype.linearCombination ℝ prim) ∘ v := by
    funext c
    rw [Function.comp, Fintype.linearCombination_apply]
    rfl
  rw [this]
  refine LinearMap.linearIndependent_iff _ ?_
  rw [LinearMap.ker_eq_bot, ← linearIndependent_iff_injective_fintypeLinearCombination]
  exact hb

/-- The first `p` columns are linearly independent in real space. -/
def Indep (prim : Fin n → E) (p : ℕ) (m : ℕ → Fin n → ℤ) : Prop := LinearIndependent ℝ fun c : Fin p => latPt prim (m c)

/-- `np.argmax` -/
def ArgmaxOk (argmax : (Fin n → ℝ) → Fin n) : Prop := ∀ (f : Fin n → ℝ) (i : Fin n), f i ≤ f (argmax f)

theorem indep_step {argmax : (Fin n → ℝ) → Fin n} (ha : ArgmaxOk argmax) {prim : Fin n → E} (hb : LinearIndependent ℝ prim) {p : ℕ} {m : ℕ → Fin n → ℤ}
    (hp : p < n) (h : Indep prim p m) : Indep prim (p + 1) (fillStep argmax prim (p, m)).2 := by
  have hfin : FiniteDimensional ℝ (Submodule.span ℝ (Set.range fun c : Fin p => latPt prim (m c))) := FiniteDimensional.span_of_finite ℝ (Set.finite_range _)
  set K := Submodule.span ℝ (Set.range fun c : Fin p => latPt prim (m c)) with hK
  have hclosed : IsClosed (K : Set E) := Submodule.closed_of_finiteDimensional K
  have hne : (K : Set E).Nonempty := ⟨0, K.zero_mem⟩
  set idx := argmax (residuals prim m p) with hidx
  have hout : prim idx ∉ K := by
    intro hin
    have h0 : residuals prim m p idx = 0 := (hclosed.mem_iff_infDist_zero hne).mp hin
    have hall : ∀ i, prim i ∈ K := by
      intro i
      refine (hclosed.mem_iff_infDist_zero hne).mpr (le_antisymm ?_ Metric.infDist_nonneg)
      have := ha (residuals prim m p) i
      rw [← hidx, h0] at this
      exact this
    have hle : Submodule.span ℝ (Set.range prim) ≤ K := Submodule.span_le.mpr (by rintro _ ⟨i, rfl⟩; exact hall i)
    have h1 := Submodule.finrank_mono hle
    rw [finrank_span_eq_card hb, Fintype.card_fin] at h1
    have h2 : Module.finrank ℝ K ≤ p := by
      have := finrank_range_le_card (R := ℝ) (b := fun c : Fin p => latPt prim (m c))
      rwa [Fintype.card_fin] at this
    omega
  have hsingle : latPt prim (Pi.single idx 1) = prim idx := by
    unfold latPt
    rw [Finset.sum_eq_single idx]
    · rw [Pi.single_eq_same, Int.cast_one, one_smul]
    · intro b _ hb; rw [Pi.single_eq_of_ne hb, Int.cast_zero, zero_smul]
    · intro hx; exact absurd (Finset.mem_univ _) hx
  have hm : ∀ c : Fin p, Function.update m p (Pi.single idx 1) (c : ℕ) = m c := fun c => Function.update_of_ne (by have := c.isLt; omega) _ _
  unfold Indep
  rw [linearIndependent_finSucc']
  have hinit : (Fin.init fun c : Fin (p + 1) => latPt prim ((fillStep argmax prim (p, m)).2 c)) = fun c : Fin p => latPt prim (m c) := by
    funext c
    show latPt prim (Function.update m p (Pi.single idx 1) c.castSucc.val) = _
    rw [Fin.val_castSucc, hm]
  rw [hinit]
  refine ⟨h, ?_⟩
  show latPt prim (Function.update m p (Pi.single idx 1) (Fin.last p).val) ∉ _
  rw [Fin.val_last, Function.update_self, hsingle]
  exact hout

theorem fillLoop_spec {argmax : (Fin n → ℝ) → Fin n} (ha : ArgmaxOk argmax) {prim : Fin n → E} (hb : LinearIndependent ℝ prim) {r p : ℕ} {m : ℕ → Fin n → ℤ}
    (hp : p + r = n) (h : Indep prim p m) :
    Indep prim n (fillLoop argmax prim r (p, m)).2 ∧ (∀ c < p, (fillLoop argmax prim r (p, m)).2 c = m c) ∧
      ∀ c, p ≤ c → c < n → ∃ i, (fillLoop argmax prim r (p, m)).2 c = Pi.single i 1 := by
  induction r generalizing p m with
  | zero =>
    obtain rfl : p = n := by omega
    exact ⟨h, fun _ _ => rfl, fun c h1 h2 => by omega⟩
  | succ r ih =>
    obtain ⟨h1, h2, h3⟩ := ih (p := p + 1) (by omega) (indep_step ha hb (by omega) h)
    refine ⟨h1, fun c hc => ?_, fun c hc hcn => ?_⟩
    · refine (h2 c (by omega)).trans ?_
      exact Function.update_of_ne (by omega) _ _
    · by_cases e : c = p
      · refine ⟨argmax (residuals prim m p), (h2 c (by omega)).trans ?_⟩
        subst e
        exact Function.update_self _ _ _
      · exact h3 c (by omega) hcn

theorem det_ne {prim : Fin n → E} {m : ℕ → Fin n → ℤ} (h : Indep prim n m) : (Matrix.of fun i c : Fin n => m c i : Matrix (Fin n) (Fin n) ℤ).det ≠ 0 := by
  intro h0
  obtain ⟨v, hv, hv0⟩ := Matrix.exists_mulVec_eq_zero_iff.mpr h0
  apply hv
  have e : ∑ c, (v c : ℝ) • latPt prim (m c) = 0 := by
    unfold latPt
    simp only [Finset.smul_sum, smul_smul]
    rw [Finset.sum_comm]
    refine Finset.sum_eq_zero fun i _ => ?_
    rw [← Finset.sum_smul]
    have := congrFun hv0 i
    simp only [Matrix.mulVec, dotProduct, Matrix.of_apply, Pi.zero_apply] at this
    have h2 : ∑ c : Fin n, (v c : ℝ) * (m c i : ℝ) = 0 := by
      have h3 : ((∑ c : Fin n, m c i * v c : ℤ) : ℝ) = 0 := by rw [this]; exact Int.cast_zero
      push_cast at h3
      rw [← h3]
      exact Finset.sum_congr rfl fun c _ => mul_comm _ _
    rw [h2, zero_smul]
  funext c
  have := Fintype.linearIndependent_iff.mp h (fun c => (v c : ℝ)) e c
  exact_mod_cast this

/-! ### Theorems -/

/-- **C107**: the outcome of `add_site_family`, for linearly independent primitive vectors.  It raises `ValueError` exactly if a period is not a lattice vector, if there
are too many `other_vectors`, or if these are linearly dependent on the periods; it never raises `RuntimeError`. -/
theorem C107_outcome {lsq : (Fin n → E) → E → Fin n → ℝ} (hl : LsqOk lsq) {argmax : (Fin n → ℝ) → Fin n} (ha : ArgmaxOk argmax) {prim : Fin n → E}
    (hb : LinearIndependent ℝ prim) (periods : Fin k → E) (others : List (Fin n → ℤ)) :
    (addFamily lsq argmax prim periods others = .error .incommensurate ↔ ¬ ∀ i, ∃ z : Fin n → ℤ, periods i = latPt prim z) ∧
    addFamily lsq argmax prim periods others ≠ .error .failed ∧
    ((∀ i, ∃ z : Fin n → ℤ, periods i = latPt prim z) → k + others.length ≤ n →
      ((∃ m, addFamily lsq argmax prim periods others = .ok m) ↔
        LinearIndependent ℝ (Sum.elim periods fun i : Fin others.length => latPt prim (others.get i)))) := by
  have hi := integerCoefs_iff hl hb periods
  have hind : integerCoefs lsq prim periods →
      (LinearIndependent ℝ (fun c : Fin (k + others.length) => fun j => (columns0 lsq prim periods others c j : ℝ)) ↔
        Indep prim (k + others.length) (columns0 lsq prim periods others)) := fun _ =>
    (realPt_li hb fun c : Fin (k + others.length) => fun j => (columns0 lsq prim periods others c j : ℝ)).symm
  have hdet : integerCoefs lsq prim periods → k + others.length ≤ n →
      LinearIndependent ℝ (fun c : Fin (k + others.length) => fun j => (columns0 lsq prim periods others c j : ℝ)) →
      (Matrix.of fun i c : Fin n => columns argmax prim (k + others.length) (columns0 lsq prim periods others) c i : Matrix (Fin n) (Fin n) ℤ).det ≠ 0 := by
    intro h1 h2 h3
    exact det_ne (fillLoop_spec ha hb (by omega) ((hind h1).mp h3)).1
  refine ⟨?_, ?_, ?_⟩
  · rw [← hi]
    unfold addFamily
    by_cases h1 : integerCoefs lsq prim periods
    · rw [if_neg (not_not.mpr h1)]
      constructor
      · intro h
        split at h
        · cases h
        · split at h
          · cases h
          · simp only at h
            split at h <;> cases h
      · intro h; exact absurd h1 h
    · rw [if_pos h1]; exact ⟨fun _ => h1, fun _ => rfl⟩
  · unfold addFamily
    intro h
    split at h
    · cases h
    · next h1 =>
      split at h
      · cases h
      · next h2 =>
        split at h
        · cases h
        · next h3 =>
          simp only at h
          split at h
          · next h4 => exact hdet (not_not.mp h1) (by omega) (not_not.mp h3) h4
          · cases h
  · intro h1 h2
    have h1' := hi.mpr h1
    have heq : Indep prim (k + others.length) (columns0 lsq prim periods others) ↔
        LinearIndependent ℝ (Sum.elim periods fun i : Fin others.length => latPt prim (others.get i)) := by
      unfold Indep
      have e : (fun c : Fin (k + others.length) => latPt prim (columns0 lsq prim periods others c)) ∘ finSumFinEquiv =
          Sum.elim periods fun i : Fin others.length => latPt prim (others.get i) := by
        funext c
        cases c with
        | inl i =>
          show latPt prim (columns0 lsq prim periods others (finSumFinEquiv (Sum.inl i)).val) = periods i
          rw [finSumFinEquiv_apply_left, Fin.val_castAdd, columns0_period h1']
        | inr i =>
          show latPt prim (columns0 lsq prim periods others (finSumFinEquiv (Sum.inr i)).val) = latPt prim (others.get i)
          rw [finSumFinEquiv_apply_right, Fin.val_natAdd]
          unfold columns0
          rw [dif_neg (by omega), Nat.add_sub_cancel_left, List.getD_eq_getElem?_getD, List.getElem?_eq_getElem i.isLt]
          rfl
      rw [← e]
      exact (linearIndependent_equiv finSumFinEquiv).symm
    rw [← heq, ← hind h1']
    constructor
    · rintro ⟨m, hm⟩
      unfold addFamily at hm
      rw [if_neg (not_not.mpr h1'), if_neg (by omega)] at hm
      by_contra h3
      rw [if_pos h3] at hm
      cases hm
    · intro h3
      unfold addFamily
      rw [if_neg (not_not.mpr h1'), if_neg (by omega), if_neg (not_not.mpr h3)]
      simp only
      rw [if_neg (hdet h1' h2 h3)]
      exact ⟨_, rfl⟩

/-- **C107**: without `other_vectors`, `add_site_family` succeeds for all lattices that contain the periods. -/
theorem C107_succeeds {lsq : (Fin n → E) → E → Fin n → ℝ} (hl : LsqOk lsq) {argmax : (Fin n → ℝ) → Fin n} (ha : ArgmaxOk argmax) {prim : Fin n → E}
    (hb : LinearIndependent ℝ prim) {periods : Fin k → E} (hper : LinearIndependent ℝ periods) :
    (∃ m, addFamily lsq argmax prim periods [] = .ok m) ↔ ∀ i, ∃ z : Fin n → ℤ, periods i = latPt prim z := by
  obtain ⟨h1, -, h3⟩ := C107_outcome hl ha hb periods []
  constructor
  · rintro ⟨m, hm⟩
    by_contra hc
    rw [h1.mpr hc] at hm
    cases hm
  · intro h
    have hkn : k ≤ n := by
      have hle : Submodule.span ℝ (Set.range periods) ≤ Submodule.span ℝ (Set.range prim) := Submodule.span_le.mpr (by
        rintro _ ⟨i, rfl⟩
        obtain ⟨z, hz⟩ := h i
        rw [hz]
        exact Submodule.sum_mem _ fun j _ => Submodule.smul_mem _ _ (Submodule.subset_span ⟨j, rfl⟩))
      have hfin : FiniteDimensional ℝ (Submodule.span ℝ (Set.range prim)) := FiniteDimensional.span_of_finite ℝ (Set.finite_range _)
      have := Submodule.finrank_mono hle
      rwa [finrank_span_eq_card hb, finrank_span_eq_card hper, Fintype.card_fin, Fintype.card_fin] at this
    refine (h3 h (by simpa using hkn)).mpr ?_
    have : IsEmpty (Fin ([] : List (Fin n → ℤ)).length) := inferInstanceAs (IsEmpty (Fin 0))
    refine LinearIndependent.sum_type hper linearIndependent_empty_type ?_
    rw [Set.range_eq_empty (fun i : Fin ([] : List (Fin n → ℤ)).length => latPt prim (([] : List (Fin n → ℤ)).get i)), Submodule.span_empty]
    exact disjoint_bot_right

/-- **C107**: the data for the family: the determinant does not vanish, the first columns are the periods in the basis of the lattice, followed by `other_vectors`, and
the remaining columns are unit vectors. -/
theorem C107_data {lsq : (Fin n → E) → E → Fin n → ℝ} {argmax : (Fin n → ℝ) → Fin n} (ha : ArgmaxOk argmax) {prim : Fin n → E}
    (hb : LinearIndependent ℝ prim) {periods : Fin k → E} {others : List (Fin n → ℤ)} {m : Matrix (Fin n) (Fin n) ℤ}
    (h : addFamily lsq argmax prim periods others = .ok m) :
    m.det ≠ 0 ∧ k + others.length ≤ n ∧ (∀ (i : Fin k) (c : Fin n), c.val = i.val → ∑ j, m j c • prim j = periods i) ∧
    (∀ (i : Fin others.length) (c : Fin n), c.val = k + i.val → (fun j => m j c) = others.get i) ∧
    ∀ c : Fin n, k + others.length ≤ c.val → ∃ i, (fun j => m j c) = Pi.single i 1 := by
  unfold addFamily at h
  split at h
  · cases h
  · next h1 =>
    split at h
    · cases h
    · next h2 =>
      split at h
      · cases h
      · next h3 =>
        simp only at h
        split at h
        · cases h
        · next h4 =>
          injection h with h
          have hI : Indep prim (k + others.length) (columns0 lsq prim periods others) :=
            (realPt_li hb fun c : Fin (k + others.length) => fun j => (columns0 lsq prim periods others c j : ℝ)).mpr (not_not.mp h3)
          obtain ⟨-, s2, s3⟩ := fillLoop_spec ha hb (r := n - (k + others.length)) (by omega) hI
          have hcol : ∀ c : Fin n, (fun j => m j c) = columns argmax prim (k + others.length) (columns0 lsq prim periods others) c := by
            intro c; rw [← h]; rfl
          refine ⟨by rw [← h]; exact h4, by omega, fun i c hc => ?_, fun i c hc => ?_, fun c hc => ?_⟩
          · have e : (fun j => m j c) = columns0 lsq prim periods others i := by rw [hcol, columns, s2 _ (by omega), hc]
            have := columns0_period (not_not.mp h1) others i
            rw [← e] at this
            rw [← this]
            exact Finset.sum_congr rfl fun j _ => (Int.cast_smul_eq_zsmul ℝ _ _).symm
          · rw [hcol, columns, s2 _ (by omega), hc]
            unfold columns0
            rw [dif_neg (by omega), Nat.add_sub_cancel_left, List.getD_eq_getElem?_getD, List.getElem?_eq_getElem i.isLt]
            rfl
          · rw [hcol]
            exact s3 c hc c.isLt

/-- The cached data (l.665-678) as used by `which` and `act`. -/
def mkFam {k n : ℕ} (m : Matrix (Fin n) (Fin n) ℤ) (hk : k ≤ n) (hm : m.det ≠ 0) : FamData k := ⟨n, m, hk, hm⟩

/-- **C107**: with the cached data, acting with a group element moves the position of a site by the corresponding combination of the periods. -/
theorem C107_act {lsq : (Fin n → E) → E → Fin n → ℝ} {argmax : (Fin n → ℝ) → Fin n} (ha : ArgmaxOk argmax) {prim : Fin n → E}
    (hb : LinearIndependent ℝ prim) {periods : Fin k → E} {others : List (Fin n → ℤ)} {m : Matrix (Fin n) (Fin n) ℤ}
    (h : addFamily lsq argmax prim periods others = .ok m) (hk : k ≤ n) (hm : m.det ≠ 0) (offset : E) (g : Fin k → ℤ) (t : Fin n → ℤ) :
    tagPos prim offset (t + (show Fin n → ℤ from (mkFam m hk hm).mPart.mulVec g)) = tagPos prim offset t + latPt periods g := by
  obtain ⟨-, -, h3, -⟩ := C107_data ha hb h
  let M : Matrix (Fin n) (Fin k) ℤ := (mkFam m hk hm).mPart
  have e : latPt prim (M.mulVec g) = latPt periods g := by
    unfold latPt
    have : ∀ i, periods i = ∑ j, (M j i : ℝ) • prim j := fun i => by
      rw [← h3 i (Fin.castLE hk i) rfl]
      exact Finset.sum_congr rfl fun j _ => (Int.cast_smul_eq_zsmul ℝ _ _).symm
    simp only [this, Finset.smul_sum, smul_smul]
    rw [Finset.sum_comm]
    refine Finset.sum_congr rfl fun j _ => ?_
    rw [← Finset.sum_smul]
    congr 1
    show ((∑ i, M j i * g i : ℤ) : ℝ) = ∑ i, (g i : ℝ) * (M j i : ℝ)
    push_cast
    exact Finset.sum_congr rfl fun i _ => mul_comm _ _
  show tagPos prim offset (t + M.mulVec g) = _
  unfold tagPos
  rw [latPt_add, e]
  abel

/-- **C106**: `has_subgroup(other)` is true exactly if all the periods of `other` are integer combinations of those of the symmetry. -/
theorem C106_hasSubgroup {lsq : (Fin n → E) → E → Fin n → ℝ} (hl : LsqOk lsq) {periods : Fin n → E} (hb : LinearIndependent ℝ periods) (other : Fin k → E) :
    hasSubgroup lsq periods other = true ↔ ∀ i, other i ∈ Submodule.span ℤ (Set.range periods) := by
  unfold hasSubgroup
  rw [@decide_eq_true_iff _ (Classical.propDecidable _), integerCoefs_iff hl hb]
  refine forall_congr' fun i => ?_
  rw [Submodule.mem_span_range_iff_exists_fun]
  constructor
  · rintro ⟨z, hz⟩
    exact ⟨z, by rw [hz]; exact Finset.sum_congr rfl fun j _ => (Int.cast_smul_eq_zsmul ℝ _ _).symm⟩
  · rintro ⟨z, hz⟩
    exact ⟨z, by rw [← hz]; exact Finset.sum_congr rfl fun j _ => (Int.cast_smul_eq_zsmul ℝ _ _).symm⟩

/-- **C106**: the periods of `subgroup(*generators)` are the integer combinations given by the generators; the call succeeds exactly if the generators are linearly
independent, and the result is a subgroup according to `has_subgroup`. -/
theorem C106_subgroup {lsq : (Fin n → E) → E → Fin n → ℝ} (hl : LsqOk lsq) {periods : Fin n → E} (hb : LinearIndependent ℝ periods) (generators : Fin k → Fin n → ℤ) :
    ((∃ p, subgroup periods generators = some p) ↔ LinearIndependent ℤ generators) ∧
    ∀ p, subgroup periods generators = some p → (∀ i, p i = ∑ j, generators i j • periods j) ∧ hasSubgroup lsq periods p = true := by
  have hz : LinearIndependent ℝ (fun i => latPt periods (generators i)) ↔ LinearIndependent ℤ generators := by
    rw [show (fun i => latPt periods (generators i)) = fun i => realPt periods (fun j => (generators i j : ℝ)) from rfl, realPt_li hb]
    exact linearIndependent_algebraMap_comp_iff (R := ℤ) (S := ℝ)
  unfold subgroup
  constructor
  · rw [← hz]
    constructor
    · rintro ⟨p, hp⟩
      by_contra hc
      rw [if_neg hc] at hp
      cases hp
    · intro h
      rw [if_pos h]
      exact ⟨_, rfl⟩
  · intro p hp
    split at hp
    · obtain rfl := Option.some.inj hp
      have hsum : ∀ i, latPt periods (generators i) = ∑ j, generators i j • periods j := fun i =>
        Finset.sum_congr rfl fun j _ => Int.cast_smul_eq_zsmul ℝ _ _
      refine ⟨hsum, (C106_hasSubgroup hl hb _).mpr fun i => ?_⟩
      rw [hsum]
      exact Submodule.sum_mem _ fun j _ => Submodule.smul_mem _ _ (Submodule.subset_span ⟨j, rfl⟩)
    · cases hp

/-- The action of a symmetry on the sites of families with the data `d` (the sublattices of a polyatomic lattice). -/
def famSym {k : ℕ} (L : Type) (d : FamData k) (rev : Bool) : Symmetry (L × (Fin d.dim → ℤ)) (Fin k → ℤ) where
  act := fun g s => (s.1, ((TransSym.mk (F := Unit) k (fun _ => d) rev).act g ⟨(), s.2⟩).tag)
  which := fun s => (TransSym.mk (F := Unit) k (fun _ => d) rev).which ⟨(), s.2⟩

/-- **C106**: if `sym.has_subgroup(other)` is true and a family has been added to both symmetries, every element of `other` acts on its sites as an element of `sym`:
the relation that `Builder.fill` needs (C34). -/
theorem C106_subSym {lsq : (Fin n → E) → E → Fin n → ℝ} {lsq' : (Fin k → E) → E → Fin k → ℝ} (hl' : LsqOk lsq') {argmax : (Fin n → ℝ) → Fin n}
    (ha : ArgmaxOk argmax) {prim : Fin n → E} (hb : LinearIndependent ℝ prim) {periods : Fin k → E} (hper : LinearIndependent ℝ periods) {k' : ℕ}
    {other : Fin k' → E} (hs : hasSubgroup lsq' periods other = true) {vecs vecs' : List (Fin n → ℤ)} {m m' : Matrix (Fin n) (Fin n) ℤ}
    (h : addFamily lsq argmax prim periods vecs = .ok m) (h' : addFamily lsq argmax prim other vecs' = .ok m') (hk : k ≤ n) (hk' : k' ≤ n) (hm : m.det ≠ 0)
    (hm' : m'.det ≠ 0) (L : Type) (rev rev' : Bool) :
    Kwant.Builder.SubSym (S := L × (Fin n → ℤ)) (famSym L (mkFam m' hk' hm') rev') (famSym L (mkFam m hk hm) rev) := by
  intro g
  -- the translation of the subgroup as a real vector
  let M : Matrix (Fin n) (Fin k) ℤ := (mkFam m hk hm).mPart
  let M' : Matrix (Fin n) (Fin k') ℤ := (mkFam m' hk' hm').mPart
  let sg : Fin k' → ℤ := if rev' then -g else g
  have hmem : latPt other sg ∈ Submodule.span ℤ (Set.range periods) := by
    have : latPt other sg = ∑ j, sg j • other j := Finset.sum_congr rfl fun j _ => Int.cast_smul_eq_zsmul ℝ _ _
    rw [this]
    exact Submodule.sum_mem _ fun j _ => Submodule.smul_mem _ _ ((C106_hasSubgroup hl' hper other).mp hs j)
  obtain ⟨f, hf⟩ := (Submodule.mem_span_range_iff_exists_fun ℤ).mp hmem
  have hf' : latPt periods f = latPt other sg := by
    rw [← hf]
    exact Finset.sum_congr rfl fun j _ => Int.cast_smul_eq_zsmul ℝ _ _
  have key : M'.mulVec sg = M.mulVec f := by
    have e1 := C107_act ha hb h' hk' hm' 0 sg 0
    have e2 := C107_act ha hb h hk hm 0 f 0
    have : tagPos prim 0 (0 + M'.mulVec sg) = tagPos prim 0 (0 + M.mulVec f) := e1.trans ((by rw [hf'] : _ = _).trans e2.symm)
    have := C103_pos_injective hb 0 this
    rwa [zero_add, zero_add] at this
  refine ⟨if rev then -f else f, fun s => ?_⟩
  refine Prod.ext rfl ?_
  show s.2 + (if rev' then -(M'.mulVec g) else M'.mulVec g) = s.2 + (if rev then -(M.mulVec (if rev then -f else f)) else M.mulVec (if rev then -f else f))
  have a1 : (if rev' then -(M'.mulVec g) else M'.mulVec g) = M'.mulVec sg := by
    show _ = M'.mulVec (if rev' then -g else g)
    cases rev'
    · rfl
    · show -(M'.mulVec g) = M'.mulVec (-g)
      rw [Matrix.mulVec_neg]
  have a2 : (if rev then -(M.mulVec (if rev then -f else f)) else M.mulVec (if rev then -f else f)) = M.mulVec f := by
    cases rev
    · rfl
    · show -(M.mulVec (-f)) = M.mulVec f
      rw [Matrix.mulVec_neg, neg_neg]
  rw [a1, a2, key]

/-! ### Example -/

/-- The hypotheses are satisfied: the lattice with primitive vectors (1, 0), (2, 1), the period (3, 1) and its multiple (6, 2). -/
example : ∃ (lsq : (Fin 2 → EuclideanSpace ℝ (Fin 2)) → EuclideanSpace ℝ (Fin 2) → Fin 2 → ℝ)
    (lsq' : (Fin 1 → EuclideanSpace ℝ (Fin 2)) → EuclideanSpace ℝ (Fin 2) → Fin 1 → ℝ) (argmax : (Fin 2 → ℝ) → Fin 2)
    (m m' : Matrix (Fin 2) (Fin 2) ℤ), LsqOk lsq ∧ LsqOk lsq' ∧ ArgmaxOk argmax ∧ LinearIndependent ℝ slant ∧
    hasSubgroup lsq' (fun _ : Fin 1 => latPt slant ![1, 1]) (fun _ : Fin 1 => latPt slant ![2, 2]) = true ∧
    addFamily lsq argmax slant (fun _ : Fin 1 => latPt slant ![1, 1]) [] = .ok m ∧
    addFamily lsq argmax slant (fun _ : Fin 1 => latPt slant ![2, 2]) [] = .ok m' := by
  obtain ⟨lsq, hl⟩ := exists_lsq (E := EuclideanSpace ℝ (Fin 2)) 2
  obtain ⟨lsq', hl'⟩ := exists_lsq (E := EuclideanSpace ℝ (Fin 2)) 1
  have harg : ∀ f : Fin 2 → ℝ, ∃ i, ∀ j, f j ≤ f i := fun f => Finite.exists_max f
  choose argmax ha using harg
  have hone : ∀ z : Fin 2 → ℤ, z ≠ 0 → LinearIndependent ℝ (fun _ : Fin 1 => latPt slant z) := fun z hz =>
    linearIndependent_unique_iff.mpr (latPt_ne slant_li hz)
  have h1 : LinearIndependent ℝ (fun _ : Fin 1 => latPt slant ![1, 1]) := hone _ fun h => by simpa using congrFun h 0
  have h2 : LinearIndependent ℝ (fun _ : Fin 1 => latPt slant ![2, 2]) := hone _ fun h => by simpa using congrFun h 0
  obtain ⟨m, hm⟩ := (C107_succeeds hl ha slant_li h1).mpr fun _ => ⟨_, rfl⟩
  obtain ⟨m', hm'⟩ := (C107_succeeds hl ha slant_li h2).mpr fun _ => ⟨_, rfl⟩
  refine ⟨lsq, lsq', argmax, m, m', hl, hl', ha, slant_li, (C106_hasSubgroup hl' h1 _).mpr fun _ => ?_, hm, hm'⟩
  have : latPt slant ![2, 2] = (2 : ℤ) • latPt slant ![1, 1] := by
    rw [two_smul, ← latPt_add]
    congr 1
    funext i
    fin_cases i <;> rfl
  rw [this]
  exact Submodule.smul_mem _ _ (Submodule.subset_span ⟨0, rfl⟩)

end Kwant.Lat
