import Verif.Linalg.LLLTerm
import Mathlib.Analysis.InnerProductSpace.GramMatrix
import Mathlib.Data.Fintype.Pi
import Mathlib.Data.List.Sort

/-!
C71: kwant/linalg/lll.py, `cvp`.

Simplifications: exact real arithmetic; `la.lstsq` and `np.argsort` are arbitrary functions with the contracts `LsqOk` and `SortOk` (numpy's default sort is not
stable, so nothing is assumed about ties, and the order of `np.mgrid` does not matter); the `while` loop gets a number of steps (`fuel`).
-/

set_option linter.unusedSectionVars false

namespace Kwant.Cvp
open Finset Kwant.LLL

variable {E : Type*} [NormedAddCommGroup E] [InnerProductSpace ℝ E] {D : ℕ}

local notation "⟪" x ", " y "⟫" => inner ℝ x y

/-- The lattice point with integer coordinates `z`. -/
def latPt (basis : Fin D → E) (z : Fin D → ℤ) : E := ∑ j, (z j : ℝ) • basis j

/-- `vec_bas @ basis` -/
def realPt (basis : Fin D → E) (x : Fin D → ℝ) : E := ∑ j, x j • basis j

/-- `bbt = basis @ basis.T` (lll.py l.165) -/
noncomputable def bbt (basis : Fin D → E) : Matrix (Fin D) (Fin D) ℝ := Matrix.of fun i j => ⟪basis i, basis j⟫

/-- `np.max(np.diag(la.inv(bbt)))` (lll.py l.176) -/
noncomputable def maxDiag (basis : Fin D → E) : ℝ := ⨆ i, (bbt basis)⁻¹ i i

/-- `rad = 0.5 / np.sqrt(np.max(np.diag(la.inv(bbt))))` (lll.py l.176) -/
noncomputable def rad (basis : Fin D → E) : ℝ := 0.5 / Real.sqrt (maxDiag basis)

/-- `points = np.mgrid[...]` (lll.py l.182-183) -/
noncomputable def box (center : Fin D → ℤ) (l : ℕ) : List (Fin D → ℤ) :=
  (Fintype.piFinset fun i => Finset.Icc (center i - l) (center i + l)).toList

/-- `distances` (lll.py l.188-190) -/
noncomputable def dist (basis : Fin D → E) (vec : E) (z : Fin D → ℤ) : ℝ := ‖latPt basis z - vec‖

/-- `group_boundaries = np.where(np.diff(distances) > rtol * rad)[0]` (lll.py l.196) -/
noncomputable def boundaries (tol : ℝ) (d : List ℝ) : List ℕ :=
  (List.range (d.length - 1)).filter fun k => tol < d.getD (k + 1) 0 - d.getD k 0

/-- The part of the loop body after the sort (lll.py l.194-218): `none` for `continue`, otherwise `dist_n`, `points_keep` and the current `rtol`. -/
noncomputable def select (basis : Fin D → E) (vec : E) (n : ℕ) (group : Bool) (rtol : ℝ) (sorted : List (Fin D → ℤ)) : Option (ℝ × List (Fin D → ℤ) × ℝ) :=
  let d := sorted.map (dist basis vec)
  if group then
    let gb := boundaries (rtol * rad basis) d
    if gb.length + 1 < n then none
    else if gb.length = n - 1 then some (d.getD (d.length - 1) 0, sorted, rtol)
    else some (d.getD (gb.getD (n - 1) 0) 0, sorted.take (gb.getD (n - 1) 0 + 1), rtol)
  else some (d.getD (n - 1) 0, sorted.take n, 0)

/-- `if len(points) < n` and the sort (lll.py l.185-193) -/
noncomputable def trial (sort : (E → ℝ) → List (Fin D → ℤ) → List (Fin D → ℤ)) (basis : Fin D → E) (vec : E) (center : Fin D → ℤ) (n : ℕ) (group : Bool) (rtol : ℝ) (l : ℕ) :
    Option (ℝ × List (Fin D → ℤ) × ℝ) :=
  if (box center l).length < n then none
  else select basis vec n group rtol (sort (fun p => ‖p - vec‖) (box center l))

/-- `dist_n < (2*l - 1 - rtol) * rad` (lll.py l.224-225) -/
def accept (basis : Fin D → E) (l : ℕ) : Option (ℝ × List (Fin D → ℤ) × ℝ) → Prop
  | none => False
  | some (dn, _, rtol) => dn < (2 * (l : ℝ) - 1 - rtol) * rad basis

open Classical in
/-- The loop (lll.py l.178-230) -/
noncomputable def cvpLoop (sort : (E → ℝ) → List (Fin D → ℤ) → List (Fin D → ℤ)) (basis : Fin D → E) (vec : E) (center : Fin D → ℤ) (n : ℕ) (group : Bool) (rtol : ℝ) :
    ℕ → ℕ → Option (List (Fin D → ℤ))
  | 0, _ => none
  | fuel + 1, l =>
    if accept basis l (trial sort basis vec center n group rtol l) then (trial sort basis vec center n group rtol l).map (fun t => t.2.1)
    else cvpLoop sort basis vec center n group rtol fuel (l + 1)

/-- `cvp(vec, basis, n, group_by_length, rtol)` (lll.py l.114-230) -/
noncomputable def cvp (lsq : (Fin D → E) → E → Fin D → ℝ) (sort : (E → ℝ) → List (Fin D → ℤ) → List (Fin D → ℤ)) (vec : E) (basis : Fin D → E) (n : ℕ)
    (group : Bool) (rtol : ℝ) (fuel : ℕ) : Option (List (Fin D → ℤ)) :=
  cvpLoop sort basis (realPt basis (lsq basis vec)) (fun i => npRound (lsq basis vec i)) n group rtol fuel 1

/-- The contract of `la.lstsq`: the residual is orthogonal to the basis. -/
def LsqOk (lsq : (Fin D → E) → E → Fin D → ℝ) : Prop := ∀ basis vec i, ⟪basis i, vec - realPt basis (lsq basis vec)⟫ = 0

/-- The contract of `np.argsort`. -/
def SortOk (basis : Fin D → E) (sort : (E → ℝ) → List (Fin D → ℤ) → List (Fin D → ℤ)) : Prop :=
  ∀ f l, (sort f l).Perm l ∧ (sort f l).Pairwise fun a b => f (latPt basis a) ≤ f (latPt basis b)

/-! ### Lemmas -/

theorem bbt_eq_gram (basis : Fin D → E) : bbt basis = Matrix.gram ℝ basis := rfl

theorem bbt_unit {basis : Fin D → E} (hb : LinearIndependent ℝ basis) : IsUnit (bbt basis).det := by
  rw [isUnit_iff_ne_zero]
  intro h0
  obtain ⟨v, hv, hv0⟩ := Matrix.exists_mulVec_eq_zero_iff.mpr h0
  apply hv
  have e : realPt basis v = 0 := by
    rw [← inner_self_eq_zero (𝕜 := ℝ)]
    show ⟪∑ j, v j • basis j, realPt basis v⟫ = 0
    rw [sum_inner]
    refine Finset.sum_eq_zero fun i _ => ?_
    have := congrFun hv0 i
    simp only [Matrix.mulVec, dotProduct, bbt, Matrix.of_apply, Pi.zero_apply] at this
    rw [real_inner_smul_left]
    unfold realPt
    rw [inner_sum, Finset.sum_congr rfl (g := fun j => ⟪basis i, basis j⟫ * v j) fun j _ => by rw [real_inner_smul_right, mul_comm], this, mul_zero]
  funext i
  exact Fintype.linearIndependent_iff.mp hb v e i

/-- The dual vector. -/
noncomputable def dual (basis : Fin D → E) (i : Fin D) : E := ∑ j, (bbt basis)⁻¹ i j • basis j

theorem dual_basis {basis : Fin D → E} (hb : LinearIndependent ℝ basis) (i k : Fin D) : ⟪dual basis i, basis k⟫ = if i = k then 1 else 0 := by
  unfold dual
  rw [sum_inner]
  have := congrFun (congrFun (Matrix.nonsing_inv_mul (bbt basis) (bbt_unit hb)) i) k
  rw [Matrix.mul_apply, Matrix.one_apply] at this
  rw [← this]
  exact Finset.sum_congr rfl fun j _ => by rw [real_inner_smul_left]; rfl

theorem dual_realPt {basis : Fin D → E} (hb : LinearIndependent ℝ basis) (i : Fin D) (w : Fin D → ℝ) : ⟪dual basis i, realPt basis w⟫ = w i := by
  unfold realPt
  rw [inner_sum, Finset.sum_eq_single i]
  · rw [real_inner_smul_right, dual_basis hb, if_pos rfl, mul_one]
  · intro k _ hk; rw [real_inner_smul_right, dual_basis hb, if_neg hk.symm, mul_zero]
  · intro hx; exact absurd (Finset.mem_univ _) hx

theorem dual_norm {basis : Fin D → E} (hb : LinearIndependent ℝ basis) (i : Fin D) : ‖dual basis i‖ ^ 2 = (bbt basis)⁻¹ i i := by
  rw [← real_inner_self_eq_norm_sq]
  exact dual_realPt hb i fun j => (bbt basis)⁻¹ i j

theorem dual_ne {basis : Fin D → E} (hb : LinearIndependent ℝ basis) (i : Fin D) : dual basis i ≠ 0 := by
  intro e
  have := dual_basis hb i i
  rw [e, inner_zero_left, if_pos rfl] at this
  exact zero_ne_one this

theorem le_maxDiag (basis : Fin D → E) (i : Fin D) : (bbt basis)⁻¹ i i ≤ maxDiag basis :=
  le_ciSup (f := fun i => (bbt basis)⁻¹ i i) (Set.finite_range _).bddAbove i

theorem maxDiag_pos {basis : Fin D → E} (hb : LinearIndependent ℝ basis) (i : Fin D) : 0 < maxDiag basis := by
  refine lt_of_lt_of_le ?_ (le_maxDiag basis i)
  rw [← dual_norm hb]
  exact pow_pos (norm_pos_iff.mpr (dual_ne hb i)) 2

theorem rad_pos {basis : Fin D → E} (hb : LinearIndependent ℝ basis) (hD : 0 < D) : 0 < rad basis := by
  unfold rad
  have := Real.sqrt_pos.mpr (maxDiag_pos hb ⟨0, hD⟩)
  positivity

/-- `rad` is the radius of a ball inside the parallelepiped. -/
theorem coef_le {basis : Fin D → E} (hb : LinearIndependent ℝ basis) (w : Fin D → ℝ) (i : Fin D) : 2 * |w i| * rad basis ≤ ‖realPt basis w‖ := by
  have hs := Real.sqrt_pos.mpr (maxDiag_pos hb i)
  have h1 : |w i| ≤ ‖dual basis i‖ * ‖realPt basis w‖ := by
    rw [← dual_realPt hb i w]; exact abs_real_inner_le_norm _ _
  have h2 : ‖dual basis i‖ ≤ Real.sqrt (maxDiag basis) := by
    apply Real.le_sqrt_of_sq_le
    rw [dual_norm hb]; exact le_maxDiag basis i
  have h3 : |w i| ≤ Real.sqrt (maxDiag basis) * ‖realPt basis w‖ := h1.trans (mul_le_mul_of_nonneg_right h2 (norm_nonneg _))
  unfold rad
  rw [show 2 * |w i| * (0.5 / Real.sqrt (maxDiag basis)) = |w i| / Real.sqrt (maxDiag basis) by ring, div_le_iff₀ hs, mul_comm]
  exact h3

theorem latPt_sub (basis : Fin D → E) (z : Fin D → ℤ) (x : Fin D → ℝ) : latPt basis z - realPt basis x = realPt basis fun i => z i - x i := by
  unfold latPt realPt
  rw [← Finset.sum_sub_distrib]
  exact Finset.sum_congr rfl fun j _ => by rw [sub_smul]

theorem mem_box (center : Fin D → ℤ) (l : ℕ) (z : Fin D → ℤ) : z ∈ box center l ↔ ∀ i, center i - l ≤ z i ∧ z i ≤ center i + l := by
  unfold box
  rw [Finset.mem_toList, Fintype.mem_piFinset]
  simp only [Finset.mem_Icc]

theorem box_nodup (center : Fin D → ℤ) (l : ℕ) : (box center l).Nodup := Finset.nodup_toList _

/-- All lattice points outside of the box are far away. -/
theorem outside {basis : Fin D → E} (hb : LinearIndependent ℝ basis) (x : Fin D → ℝ) {l : ℕ} {z : Fin D → ℤ}
    (hz : z ∉ box (fun i => npRound (x i)) l) : (2 * (l : ℝ) + 1) * rad basis ≤ dist basis (realPt basis x) z := by
  rw [mem_box] at hz
  push Not at hz
  obtain ⟨i, hi⟩ := hz
  have h1 : (l : ℤ) + 1 ≤ |z i - npRound (x i)| := by
    by_cases h : npRound (x i) - l ≤ z i
    · have := hi h
      rw [le_abs]; left; omega
    · rw [le_abs]; right; omega
  have h2 : (l : ℝ) + 1 ≤ |(z i : ℝ) - npRound (x i)| := by exact_mod_cast h1
  have h3 := npRound_abs (x i)
  have h4 : (l : ℝ) + 1 / 2 ≤ |(z i : ℝ) - x i| := by
    have : |(z i : ℝ) - npRound (x i)| ≤ |(z i : ℝ) - x i| + |x i - npRound (x i)| := abs_sub_le _ _ _
    linarith
  have h5 := coef_le hb (fun i => (z i : ℝ) - x i) i
  have hr := rad_pos hb (Fin.pos i)
  unfold dist
  rw [latPt_sub]
  refine le_trans ?_ h5
  have : (2 * (l : ℝ) + 1) ≤ 2 * |(z i : ℝ) - x i| := by linarith
  exact mul_le_mul_of_nonneg_right this hr.le

/-- The result of an accepted round. -/
theorem loop_spec {sort : (E → ℝ) → List (Fin D → ℤ) → List (Fin D → ℤ)} {basis : Fin D → E} {vec : E} {center : Fin D → ℤ} {n : ℕ} {group : Bool} {rtol : ℝ}
    {fuel l : ℕ} {R : List (Fin D → ℤ)} (h : cvpLoop sort basis vec center n group rtol fuel l = some R) :
    ∃ l', l ≤ l' ∧ ∃ dn rt, trial sort basis vec center n group rtol l' = some (dn, R, rt) ∧ dn < (2 * (l' : ℝ) - 1 - rt) * rad basis := by
  induction fuel generalizing l with
  | zero => cases h
  | succ fuel ih =>
    unfold cvpLoop at h
    by_cases ha : accept basis l (trial sort basis vec center n group rtol l)
    · rw [if_pos ha] at h
      cases ht : trial sort basis vec center n group rtol l with
      | none => rw [ht] at ha; exact ha.elim
      | some t =>
        obtain ⟨dn, R', rt⟩ := t
        rw [ht] at h ha
        obtain rfl := Option.some.inj h
        exact ⟨l, le_rfl, dn, rt, ht, ha⟩
    · rw [if_neg ha] at h
      obtain ⟨l', h1, h2⟩ := ih h
      exact ⟨l', by omega, h2⟩

theorem trial_some {sort : (E → ℝ) → List (Fin D → ℤ) → List (Fin D → ℤ)} {basis : Fin D → E} {vec : E} {center : Fin D → ℤ} {n : ℕ} {group : Bool} {rtol : ℝ} {l : ℕ}
    {t : ℝ × List (Fin D → ℤ) × ℝ} (h : trial sort basis vec center n group rtol l = some t) :
    n ≤ (box center l).length ∧ select basis vec n group rtol (sort (fun p => ‖p - vec‖) (box center l)) = some t := by
  unfold trial at h
  split at h
  · cases h
  · next hn => exact ⟨le_of_not_gt hn, h⟩

theorem getD_lt {α : Type*} {l : List α} {k : ℕ} {a : α} (h : k < l.length) : l.getD k a = l[k] := by
  rw [List.getD_eq_getElem?_getD, List.getElem?_eq_getElem h]; rfl

/-- Pythagoras: the distances to the vector and to its projection. -/
theorem dist_proj {lsq : (Fin D → E) → E → Fin D → ℝ} (hl : LsqOk lsq) (basis : Fin D → E) (vec : E) (z : Fin D → ℤ) :
    ‖latPt basis z - vec‖ ^ 2 = dist basis (realPt basis (lsq basis vec)) z ^ 2 + ‖vec - realPt basis (lsq basis vec)‖ ^ 2 := by
  set x := lsq basis vec
  have e : latPt basis z - vec = (latPt basis z - realPt basis x) - (vec - realPt basis x) := by abel
  have ho : ⟪latPt basis z - realPt basis x, vec - realPt basis x⟫ = 0 := by
    rw [latPt_sub]
    unfold realPt
    rw [sum_inner]
    refine Finset.sum_eq_zero fun j _ => ?_
    rw [real_inner_smul_left]
    have := hl basis vec j
    unfold realPt at this
    rw [this, mul_zero]
  unfold dist
  rw [e, @norm_sub_sq_real, ho]
  ring

theorem dist_mono {lsq : (Fin D → E) → E → Fin D → ℝ} (hl : LsqOk lsq) (basis : Fin D → E) (vec : E) (y z : Fin D → ℤ) :
    dist basis (realPt basis (lsq basis vec)) y ≤ dist basis (realPt basis (lsq basis vec)) z ↔ ‖latPt basis y - vec‖ ≤ ‖latPt basis z - vec‖ := by
  have h1 := dist_proj hl basis vec y
  have h2 := dist_proj hl basis vec z
  have e1 : ‖latPt basis y - vec‖ ≤ ‖latPt basis z - vec‖ ↔ ‖latPt basis y - vec‖ ^ 2 ≤ ‖latPt basis z - vec‖ ^ 2 :=
    (pow_le_pow_iff_left₀ (norm_nonneg _) (norm_nonneg _) two_ne_zero).symm
  have e2 : dist basis (realPt basis (lsq basis vec)) y ≤ dist basis (realPt basis (lsq basis vec)) z ↔
      dist basis (realPt basis (lsq basis vec)) y ^ 2 ≤ dist basis (realPt basis (lsq basis vec)) z ^ 2 :=
    (pow_le_pow_iff_left₀ (norm_nonneg _) (norm_nonneg _) two_ne_zero).symm
  rw [e1, e2, h1, h2]
  constructor <;> intro h <;> linarith

/-- **C71**: without grouping, `cvp` returns n different lattice points in order of their distance, and no other lattice point is closer than any of them. -/
theorem C71_closest {lsq : (Fin D → E) → E → Fin D → ℝ} {sort : (E → ℝ) → List (Fin D → ℤ) → List (Fin D → ℤ)} {basis : Fin D → E} (hl : LsqOk lsq)
    (hs : SortOk basis sort) (hb : LinearIndependent ℝ basis) {vec : E} {n : ℕ} (hn : 1 ≤ n) {rtol : ℝ} {fuel : ℕ} {R : List (Fin D → ℤ)}
    (h : cvp lsq sort vec basis n false rtol fuel = some R) :
    R.length = n ∧ R.Nodup ∧ R.Pairwise (fun a b => ‖latPt basis a - vec‖ ≤ ‖latPt basis b - vec‖) ∧
      ∀ z, z ∉ R → ∀ r ∈ R, ‖latPt basis r - vec‖ ≤ ‖latPt basis z - vec‖ := by
  obtain ⟨l, -, dn, rt, ht, hd⟩ := loop_spec h
  obtain ⟨hlen, hsel⟩ := trial_some ht
  set x := lsq basis vec
  set pts := box (fun i => npRound (x i)) l with hpts
  obtain ⟨hp, hsorted⟩ := hs (fun p => ‖p - realPt basis x‖) pts
  set sp := sort (fun p => ‖p - realPt basis x‖) pts with hsp
  unfold select at hsel
  rw [if_neg (by simp)] at hsel
  obtain ⟨h1, h2⟩ := Prod.mk.inj (Option.some.inj hsel)
  obtain ⟨h2, h3⟩ := Prod.mk.inj h2
  have hspl : sp.length = pts.length := hp.length_eq
  have hRl : R.length = n := by rw [← h2, List.length_take]; omega
  have hnd : sp.Nodup := hp.nodup_iff.mpr (box_nodup _ _)
  have hdn : ∃ hlt : n - 1 < sp.length, dn = dist basis (realPt basis x) sp[n - 1] := by
    have hlt : n - 1 < sp.length := by omega
    refine ⟨hlt, ?_⟩
    rw [← h1, getD_lt (by simpa using hlt), List.getElem_map]
  obtain ⟨hlt, hdn⟩ := hdn
  have hpair : ∀ i j (hi : i < sp.length) (hj : j < sp.length), i ≤ j → dist basis (realPt basis x) sp[i] ≤ dist basis (realPt basis x) sp[j] := by
    intro i j hi hj hij
    rcases Nat.lt_or_eq_of_le hij with hlt' | rfl
    · exact List.pairwise_iff_getElem.mp hsorted i j hi hj hlt'
    · exact le_rfl
  have hin : ∀ r ∈ R, dist basis (realPt basis x) r ≤ dn := by
    intro r hr
    rw [← h2] at hr
    obtain ⟨i, hi, rfl⟩ := List.getElem_of_mem hr
    rw [List.getElem_take]
    rw [hdn]
    have : i < n := by have := hi; rw [List.length_take] at this; omega
    exact hpair i (n - 1) _ hlt (by omega)
  refine ⟨hRl, h2 ▸ hnd.sublist (List.take_sublist _ _), ?_, fun z hz r hr => ?_⟩
  · rw [← h2]
    refine (hsorted.sublist (List.take_sublist n sp)).imp fun {a b} hab => ?_
    exact (dist_mono hl basis vec a b).mp hab
  · rw [← dist_mono hl]
    refine (hin r hr).trans ?_
    by_cases hzb : z ∈ pts
    · have hzs : z ∈ sp := hp.mem_iff.mpr hzb
      obtain ⟨k, hk, rfl⟩ := List.getElem_of_mem hzs
      rw [hdn]
      refine hpair (n - 1) k hlt hk ?_
      by_contra hc
      apply hz
      rw [← h2, List.mem_iff_getElem]
      exact ⟨k, by rw [List.length_take]; omega, by rw [List.getElem_take]⟩
    · have ho := outside hb x hzb
      have hD : 0 < D := by
        by_contra h0
        have : D = 0 := by omega
        subst this
        exact hzb ((mem_box _ _ _).mpr fun i => i.elim0)
      have hr := rad_pos hb hD
      rw [← h3] at hd
      show dn ≤ dist basis (realPt basis x) z
      nlinarith

theorem box_length (center : Fin D → ℤ) (l : ℕ) : (box center l).length = (2 * l + 1) ^ D := by
  unfold box
  rw [Finset.length_toList, Fintype.card_piFinset]
  have : ∀ i, (Finset.Icc (center i - l) (center i + l)).card = 2 * l + 1 := fun i => by rw [Int.card_Icc]; omega
  simp only [this, Finset.prod_const, Finset.card_univ, Fintype.card_fin]

theorem box_mono (center : Fin D → ℤ) {l l' : ℕ} (h : l ≤ l') {z : Fin D → ℤ} (hz : z ∈ box center l) : z ∈ box center l' := by
  rw [mem_box] at hz ⊢
  intro i
  obtain ⟨h1, h2⟩ := hz i
  omega

theorem loop_ends {sort : (E → ℝ) → List (Fin D → ℤ) → List (Fin D → ℤ)} {basis : Fin D → E} {vec : E} {center : Fin D → ℤ} {n : ℕ} {group : Bool} {rtol : ℝ}
    {l' : ℕ} (ha : accept basis l' (trial sort basis vec center n group rtol l')) (k : ℕ) : ∀ l, l + k = l' →
    ∃ R, cvpLoop sort basis vec center n group rtol (k + 1) l = some R := by
  have hstop : ∀ fuel l, accept basis l (trial sort basis vec center n group rtol l) → ∃ R, cvpLoop sort basis vec center n group rtol (fuel + 1) l = some R := by
    intro fuel l hal
    unfold cvpLoop
    rw [if_pos hal]
    cases ht : trial sort basis vec center n group rtol l with
    | none => rw [ht] at hal; exact hal.elim
    | some t => exact ⟨t.2.1, rfl⟩
  induction k with
  | zero => intro l hl; obtain rfl : l = l' := by omega
            exact hstop 0 l ha
  | succ k ih =>
    intro l hl
    by_cases hal : accept basis l (trial sort basis vec center n group rtol l)
    · exact hstop _ l hal
    · obtain ⟨R, hR⟩ := ih (l + 1) (by omega)
      refine ⟨R, ?_⟩
      unfold cvpLoop
      rw [if_neg hal]
      exact hR

/-- **C71**, termination (without grouping). -/
theorem C71_terminates {lsq : (Fin D → E) → E → Fin D → ℝ} {sort : (E → ℝ) → List (Fin D → ℤ) → List (Fin D → ℤ)} {basis : Fin D → E}
    (hs : SortOk basis sort) (hb : LinearIndependent ℝ basis) (hD : 1 ≤ D) (vec : E) {n : ℕ} (hn : 1 ≤ n) (rtol : ℝ) :
    ∃ fuel R, cvp lsq sort vec basis n false rtol fuel = some R := by
  set x := lsq basis vec with hx
  set center : Fin D → ℤ := fun i => npRound (x i) with hcenter
  have hr := rad_pos hb hD
  set d := dist basis (realPt basis x) with hd
  have hlen : ∀ l, n ≤ l → n ≤ (box center l).length := fun l hl => by
    rw [box_length]
    calc n ≤ 2 * l + 1 := by omega
      _ = (2 * l + 1) ^ 1 := (pow_one _).symm
      _ ≤ (2 * l + 1) ^ D := Nat.pow_le_pow_right (by omega) hD
  set B : ℝ := ((box center n).map d).sum with hB
  have hle : ∀ z ∈ box center n, d z ≤ B := by
    intro z hz
    exact List.single_le_sum (by
      intro y hy
      obtain ⟨w, -, rfl⟩ := List.mem_map.mp hy
      exact norm_nonneg _) _ (List.mem_map_of_mem hz)
  obtain ⟨N, hN⟩ := exists_nat_gt ((B / rad basis + 1) / 2)
  set l := max n N with hl
  have hbig : B < (2 * (l : ℝ) - 1 - 0) * rad basis := by
    have h1 : (N : ℝ) ≤ l := by exact_mod_cast le_max_right n N
    have h2 : B / rad basis < 2 * (l : ℝ) - 1 := by linarith
    rw [div_lt_iff₀ hr] at h2
    linarith
  have hacc : accept basis l (trial sort basis (realPt basis x) center n false rtol l) := by
    unfold trial
    rw [if_neg (by have := hlen l (le_max_left _ _); omega)]
    unfold select
    rw [if_neg (by simp)]
    show List.getD _ (n - 1) 0 < (2 * (l : ℝ) - 1 - 0) * rad basis
    refine lt_of_le_of_lt ?_ hbig
    obtain ⟨hp, hsorted⟩ := hs (fun p => ‖p - realPt basis x‖) (box center l)
    set sp := sort (fun p => ‖p - realPt basis x‖) (box center l) with hsp
    have hlt : n - 1 < sp.length := by rw [hp.length_eq]; have := hlen l (le_max_left _ _); omega
    rw [getD_lt (by simpa using hlt), List.getElem_map]
    by_contra hc
    have hc' : B < d sp[n - 1] := lt_of_not_ge hc
    have hsub : ∀ z ∈ box center n, z ∈ sp.take (n - 1) := by
      intro z hz
      have hzs : z ∈ sp := hp.mem_iff.mpr (box_mono center (le_max_left _ _) hz)
      obtain ⟨k, hk, rfl⟩ := List.getElem_of_mem hzs
      have hzB := hle _ hz
      have hkn : k < n - 1 := by
        by_contra hkn
        have : d sp[n - 1] ≤ d sp[k] := by
          rcases Nat.lt_or_eq_of_le (le_of_not_gt hkn) with h1 | h1
          · exact List.pairwise_iff_getElem.mp hsorted (n - 1) k hlt hk h1
          · subst h1; exact le_rfl
        linarith
      rw [List.mem_iff_getElem]
      exact ⟨k, by rw [List.length_take]; omega, by rw [List.getElem_take]⟩
    have hcard := ((box_nodup center n).subperm hsub).length_le
    rw [List.length_take] at hcard
    have := hlen n le_rfl
    omega
  have h1l : 1 ≤ l := le_trans hn (le_max_left _ _)
  obtain ⟨R, hR⟩ := loop_ends hacc (l - 1) 1 (by omega)
  exact ⟨l - 1 + 1, R, hR⟩

/-! ### Grouping -/

/-- The number of gaps larger than `tol` in a list of distances: one less than the number of groups. -/
noncomputable def gaps (tol : ℝ) : List ℝ → ℕ
  | a :: b :: l => (if tol < b - a then 1 else 0) + gaps tol (b :: l)
  | _ => 0

theorem gaps_eq (tol : ℝ) (d : List ℝ) : gaps tol d = (boundaries tol d).length := by
  unfold boundaries
  induction d with
  | nil => rfl
  | cons a d ih =>
    cases d with
    | nil => rfl
    | cons b l =>
      show (if tol < b - a then 1 else 0) + gaps tol (b :: l) = _
      rw [ih]
      simp only [List.length_cons, Nat.add_sub_cancel]
      rw [List.range_succ_eq_map, List.filter_cons, List.filter_map, ]
      have e : ((fun k => decide (tol < (a :: b :: l).getD (k + 1) 0 - (a :: b :: l).getD k 0)) ∘ Nat.succ) =
          fun k => decide (tol < (b :: l).getD (k + 1) 0 - (b :: l).getD k 0) := by
        funext k; rfl
      rw [e]
      by_cases h : tol < b - a
      · rw [if_pos h, if_pos (by simpa using h)]
        simp only [List.length_cons, List.length_map]; omega
      · rw [if_neg h, if_neg (by simpa using h)]
        simp only [List.length_map]; omega

/-- Cutting a list after a boundary. -/
theorem gaps_take (tol : ℝ) (d : List ℝ) {k : ℕ} (hk : k < (boundaries tol d).length) :
    gaps tol (d.take ((boundaries tol d).getD k 0 + 1)) = k ∧ (boundaries tol d).getD k 0 + 1 < d.length ∧
      tol < d.getD ((boundaries tol d).getD k 0 + 1) 0 - d.getD ((boundaries tol d).getD k 0) 0 := by
  set gb := boundaries tol d with hgb
  have hsorted : gb.Pairwise (· < ·) := (List.pairwise_lt_range).sublist List.filter_sublist
  have hmem : gb[k] ∈ gb := List.getElem_mem hk
  rw [getD_lt hk]
  set g := gb[k] with hg
  have hm : g < d.length - 1 ∧ tol < d.getD (g + 1) 0 - d.getD g 0 := by
    have := hmem
    rw [hgb] at this
    unfold boundaries at this
    rw [List.mem_filter, List.mem_range] at this
    simpa using this
  refine ⟨?_, by omega, hm.2⟩
  rw [gaps_eq]
  have hb : boundaries tol (d.take (g + 1)) = gb.take k := by
    have e1 : boundaries tol (d.take (g + 1)) = (List.range g).filter fun k => tol < d.getD (k + 1) 0 - d.getD k 0 := by
      unfold boundaries
      rw [List.length_take, show min (g + 1) d.length - 1 = g by omega]
      refine List.filter_congr fun j hj => ?_
      have hj' := List.mem_range.mp hj
      have t : ∀ i, i < g + 1 → (d.take (g + 1)).getD i 0 = d.getD i 0 := fun i hi => by
        rw [List.getD_eq_getElem?_getD, List.getD_eq_getElem?_getD, List.getElem?_take_of_lt hi]
      rw [t (j + 1) (by omega), t j (by omega)]
    have e2 : gb = ((List.range g).filter fun k => tol < d.getD (k + 1) 0 - d.getD k 0) ++
        ((List.range' g (d.length - 1 - g)).filter fun k => tol < d.getD (k + 1) 0 - d.getD k 0) := by
      rw [hgb]
      unfold boundaries
      rw [← List.filter_append]
      congr 1
      rw [List.range_eq_range', List.range_eq_range']
      have := List.range'_append (s := 0) (m := g) (n := d.length - 1 - g) (step := 1)
      rw [Nat.zero_add, Nat.one_mul, show g + (d.length - 1 - g) = d.length - 1 by omega] at this
      exact this.symm
    rw [e1]
    set L := (List.range g).filter fun k => tol < d.getD (k + 1) 0 - d.getD k 0 with hL
    have hLk : L.length = k := by
      rcases lt_trichotomy L.length k with hlt | heq | hgt
      · -- the element at position L.length is at least g, and the one at k is larger
        exfalso
        have h1 : gb[L.length]'(by omega) < gb[k] := List.pairwise_iff_getElem.mp hsorted _ _ _ _ hlt
        have h2 : g ≤ gb[L.length]'(by omega) := by
          have hmem2 : gb[L.length]'(by omega) ∈ (List.range' g (d.length - 1 - g)).filter fun k => tol < d.getD (k + 1) 0 - d.getD k 0 := by
            have : gb[L.length]'(by omega) = (L ++ _)[L.length]'(by rw [← e2]; omega) := List.getElem_of_eq e2 _
            rw [this, List.getElem_append_right le_rfl]
            exact List.getElem_mem _
          rw [List.mem_filter, List.mem_range'_1] at hmem2
          exact hmem2.1.1
        rw [← hg] at h1; omega
      · exact heq
      · exfalso
        have hmem2 : gb[k] ∈ L := by
          have : gb[k] = (L ++ _)[k]'(by rw [← e2]; omega) := List.getElem_of_eq e2 _
          rw [this, List.getElem_append_left hgt]
          exact List.getElem_mem _
        rw [hL, List.mem_filter, List.mem_range, ← hg] at hmem2
        omega
    rw [e2, ← hLk, List.take_left']
    rfl
  rw [hb, List.length_take]; omega

/-- **C71**, grouping: the result is sorted, consists of exactly n groups (n - 1 gaps larger than `rtol * rad`), and every other lattice point is farther
away than all returned ones by more than `rtol * rad`.  Distances are to the projection of the vector, as in the code. -/
theorem C71_groups {lsq : (Fin D → E) → E → Fin D → ℝ} {sort : (E → ℝ) → List (Fin D → ℤ) → List (Fin D → ℤ)} {basis : Fin D → E}
    (hs : SortOk basis sort) (hb : LinearIndependent ℝ basis) {vec : E} {n : ℕ} (hn : 1 ≤ n) {rtol : ℝ} {fuel : ℕ} {R : List (Fin D → ℤ)}
    (h : cvp lsq sort vec basis n true rtol fuel = some R) :
    R.Nodup ∧ (R.map (dist basis (realPt basis (lsq basis vec)))).Pairwise (· ≤ ·) ∧
    gaps (rtol * rad basis) (R.map (dist basis (realPt basis (lsq basis vec)))) + 1 = n ∧
    ∀ z, z ∉ R → ∀ r ∈ R, dist basis (realPt basis (lsq basis vec)) r + rtol * rad basis < dist basis (realPt basis (lsq basis vec)) z := by
  obtain ⟨l, -, dn, rt, ht, hd⟩ := loop_spec h
  obtain ⟨hlen, hsel⟩ := trial_some ht
  set x := lsq basis vec
  set pts := box (fun i => npRound (x i)) l with hpts
  obtain ⟨hp, hsorted⟩ := hs (fun p => ‖p - realPt basis x‖) pts
  set sp := sort (fun p => ‖p - realPt basis x‖) pts with hsp
  set ds := dist basis (realPt basis x) with hds
  have hnd : sp.Nodup := hp.nodup_iff.mpr (box_nodup _ _)
  have hpw : (sp.map ds).Pairwise (· ≤ ·) := List.pairwise_map.mpr hsorted
  have hspl : sp.length = pts.length := hp.length_eq
  have hpair : ∀ i j (hi : i < sp.length) (hj : j < sp.length), i ≤ j → ds sp[i] ≤ ds sp[j] := by
    intro i j hi hj hij
    rcases Nat.lt_or_eq_of_le hij with hlt' | rfl
    · exact List.pairwise_iff_getElem.mp hsorted i j hi hj hlt'
    · exact le_rfl
  -- points outside of the box
  have hout : dn < (2 * (l : ℝ) - 1 - rtol) * rad basis → ∀ z, z ∉ pts → dn + rtol * rad basis < ds z := by
    intro hdn z hz
    have ho := outside hb x hz
    have hD : 0 < D := by
      by_contra h0
      have : D = 0 := by omega
      subst this
      exact hz ((mem_box _ _ _).mpr fun i => i.elim0)
    have hr := rad_pos hb hD
    show _ < ds z
    have : (2 * (l : ℝ) + 1) * rad basis ≤ ds z := ho
    nlinarith
  unfold select at hsel
  rw [if_pos rfl] at hsel
  simp only at hsel
  split at hsel
  · cases hsel
  · next hge =>
    have hge' : n - 1 ≤ (boundaries (rtol * rad basis) (sp.map ds)).length := by
      have : ¬ (boundaries (rtol * rad basis) (sp.map ds)).length + 1 < n := hge
      omega
    split at hsel
    · next heq =>
      have heq' : (boundaries (rtol * rad basis) (sp.map ds)).length = n - 1 := heq
      obtain ⟨h1, h2⟩ := Prod.mk.inj (Option.some.inj hsel)
      obtain ⟨h2, h3⟩ := Prod.mk.inj h2
      rw [← h2]
      rw [← h3] at hd
      refine ⟨hnd, hpw, by rw [gaps_eq]; omega, fun z hz r hr => ?_⟩
      refine lt_of_le_of_lt ?_ (hout hd z (fun hx => hz (hp.mem_iff.mpr hx)))
      obtain ⟨k, hk, rfl⟩ := List.getElem_of_mem hr
      have : ds sp[k] ≤ dn := by
        rw [← h1, getD_lt (by rw [List.length_map]; omega), List.getElem_map]
        simp only [List.length_map]
        exact hpair k (sp.length - 1) hk (by omega) (by omega)
      linarith
    · next hne =>
      have hne' : (boundaries (rtol * rad basis) (sp.map ds)).length ≠ n - 1 := hne
      obtain ⟨h1, h2⟩ := Prod.mk.inj (Option.some.inj hsel)
      obtain ⟨h2, h3⟩ := Prod.mk.inj h2
      rw [← h3] at hd
      obtain ⟨g1, g2, g3⟩ := gaps_take (rtol * rad basis) (sp.map ds) (k := n - 1) (by omega)
      set g := (boundaries (rtol * rad basis) (sp.map ds)).getD (n - 1) 0 with hg
      rw [List.length_map] at g2
      rw [getD_lt (by rw [List.length_map]; omega), getD_lt (by rw [List.length_map]; omega), List.getElem_map, List.getElem_map] at g3
      rw [← h2]
      refine ⟨hnd.sublist (List.take_sublist _ _), ?_, ?_, fun z hz r hr => ?_⟩
      · rw [List.map_take]; exact hpw.sublist (List.take_sublist _ _)
      · rw [List.map_take, g1]; omega
      · have hdn : dn = ds sp[g] := by rw [← h1, getD_lt (by rw [List.length_map]; omega), List.getElem_map]
        have hrd : ds r ≤ dn := by
          obtain ⟨k, hk, rfl⟩ := List.getElem_of_mem hr
          rw [List.getElem_take, hdn]
          rw [List.length_take] at hk
          exact hpair k g (by omega) (by omega) (by omega)
        by_cases hzb : z ∈ pts
        · have hzs : z ∈ sp := hp.mem_iff.mpr hzb
          obtain ⟨k, hk, rfl⟩ := List.getElem_of_mem hzs
          have hkg : g + 1 ≤ k := by
            by_contra hc
            apply hz
            rw [List.mem_iff_getElem]
            exact ⟨k, by rw [List.length_take]; omega, by rw [List.getElem_take]⟩
          have := hpair (g + 1) k g2 hk hkg
          rw [hdn] at hrd
          linarith
        · have := hout hd z hzb
          linarith

end Kwant.Cvp
