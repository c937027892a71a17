import Verif.Wrap.Bands2D
import Verif.Linalg.LLLTerm
import Mathlib.Tactic.NormNum.BigOperators

/-! C187: the zone in the plot of `plot_2d_bands`. -/

set_option linter.unusedSectionVars false

namespace Kwant.Bands2D
open Kwant.LLL Kwant.Cvp Kwant.Voronoi Kwant.Lat Kwant.Spectrum

local notation "⟪" x ", " y "⟫" => inner ℝ x y

variable {V H : Type} {a : Fin 2 → Pl}

/-! ### The points -/

theorem klat_spec {N : Num Pl 2} {fuel : ℕ} {klat : List Pl} (h : klatPoints N a fuel = some (.ok klat)) :
    ∃ v coefs R, lll N.lstsq (recip a) 1.34 fuel = some (.ok (v, coefs)) ∧ voronoi N.lsq (N.sort v) v false 1e-9 fuel = some R ∧
      klat = 0 :: R.map fun z => (2 * Real.pi) • latPt (recip a) (rowDot z coefs) := by
  unfold klatPoints at h
  split at h
  · cases h
  · cases h
  · next v coefs hl =>
    obtain ⟨R, hR, e⟩ := Option.map_eq_some_iff.mp h
    refine ⟨v, coefs, R, hl, hR, ?_⟩
    rw [← Except.ok.inj e, List.map_cons, List.map_map]
    congr 1
    simp [latPt]

theorem argmin_zero {x : ℝ} {l : List ℝ} : argmin (x :: l) = 0 ↔ ∀ y ∈ l, x ≤ y := by
  unfold argmin
  rw [List.findIdx_cons]
  by_cases hx : ∀ y ∈ x :: l, x ≤ y
  · rw [show decide (∀ y ∈ x :: l, x ≤ y) = true from decide_eq_true hx]
    simpa using fun y hy => hx y (List.mem_cons_of_mem _ hy)
  · rw [show decide (∀ y ∈ x :: l, x ≤ y) = false from decide_eq_false hx]
    constructor
    · intro h; simp at h
    · intro h
      exact absurd (fun y hy => (List.mem_cons.mp hy).elim (fun e => le_of_eq e.symm) (h y)) hx

theorem outside_iff {l : List Pl} {p : Dict String (PVal V)} :
    outsideBz (0 :: l) p = false ↔ ∀ q ∈ l, ‖kOf (lookup p)‖ ≤ ‖kOf (lookup p) - q‖ := by
  unfold outsideBz
  rw [List.map_cons, bne_eq_false_iff_eq, argmin_zero]
  simp only [List.mem_map, forall_exists_index, and_imp, forall_apply_eq_imp_iff₂, zero_sub, norm_neg]
  refine forall₂_congr fun q _ => ?_
  rw [norm_sub_rev]

/-- The region around the origin that the points leave. -/
def region (l : List Pl) : Set Pl := {x | ∀ q ∈ l, ‖x‖ ≤ ‖x - q‖}

theorem bz_region (h : Indep a) (R : List (Fin 2 → ℤ)) (coefs : Matrix (Fin 2) (Fin 2) ℤ) :
    BZ a ⊆ region (R.map fun z => (2 * Real.pi) • latPt (recip a) (rowDot z coefs)) := by
  intro k hk q hq
  obtain ⟨z, -, rfl⟩ := List.mem_map.mp hq
  exact (bz_iff h k).mp hk _

/-! ### The region is bounded -/

theorem inner_bound {x w : Pl} (h1 : ‖x‖ ≤ ‖x - w‖) (h2 : ‖x‖ ≤ ‖x - -w‖) : |⟪x, w⟫| ≤ ‖w‖ ^ 2 / 2 := by
  have e1 := norm_sub_sq_real x w
  have e2 := norm_sub_sq_real x (-w)
  rw [inner_neg_right, norm_neg] at e2
  have f1 := pow_le_pow_left₀ (norm_nonneg x) h1 2
  have f2 := pow_le_pow_left₀ (norm_nonneg x) h2 2
  rw [abs_le]
  constructor <;> linarith

theorem bounded_of {w0 w1 : Pl} (hd : w0 0 * w1 1 - w0 1 * w1 0 ≠ 0) {S : Set Pl} {P Q : ℝ} (h : ∀ x ∈ S, |⟪x, w0⟫| ≤ P ∧ |⟪x, w1⟫| ≤ Q) : Bornology.IsBounded S := by
  set D := w0 0 * w1 1 - w0 1 * w1 0 with hD
  rw [isBounded_iff_forall_norm_le]
  refine ⟨(|w1 1| * P + |w0 1| * Q) / |D| + (|w0 0| * Q + |w1 0| * P) / |D|, fun x hx => ?_⟩
  obtain ⟨h0, h1⟩ := h x hx
  have hDp : 0 < |D| := abs_pos.mpr hd
  have b0 : |x 0| ≤ (|w1 1| * P + |w0 1| * Q) / |D| := by
    rw [le_div_iff₀ hDp, ← abs_mul]
    have : x 0 * D = w1 1 * ⟪x, w0⟫ - w0 1 * ⟪x, w1⟫ := by rw [inner_two, inner_two, hD]; ring
    rw [this]
    calc _ ≤ |w1 1 * ⟪x, w0⟫| + |w0 1 * ⟪x, w1⟫| := abs_sub _ _
      _ ≤ _ := by
        rw [abs_mul, abs_mul]
        exact add_le_add (mul_le_mul_of_nonneg_left h0 (abs_nonneg _)) (mul_le_mul_of_nonneg_left h1 (abs_nonneg _))
  have b1 : |x 1| ≤ (|w0 0| * Q + |w1 0| * P) / |D| := by
    rw [le_div_iff₀ hDp, ← abs_mul]
    have : x 1 * D = w0 0 * ⟪x, w1⟫ - w1 0 * ⟪x, w0⟫ := by rw [inner_two, inner_two, hD]; ring
    rw [this]
    calc _ ≤ |w0 0 * ⟪x, w1⟫| + |w1 0 * ⟪x, w0⟫| := abs_sub _ _
      _ ≤ _ := by
        rw [abs_mul, abs_mul]
        exact add_le_add (mul_le_mul_of_nonneg_left h1 (abs_nonneg _)) (mul_le_mul_of_nonneg_left h0 (abs_nonneg _))
  calc ‖x‖ ≤ |x 0| + |x 1| := by
        rw [← abs_of_nonneg (norm_nonneg x)]
        rw [← abs_of_nonneg (add_nonneg (abs_nonneg (x 0)) (abs_nonneg (x 1)))]
        rw [← sq_le_sq, ← real_inner_self_eq_norm_sq, inner_two]
        nlinarith [abs_nonneg (x 0), abs_nonneg (x 1), abs_mul_abs_self (x 0), abs_mul_abs_self (x 1), mul_nonneg (abs_nonneg (x 0)) (abs_nonneg (x 1))]
    _ ≤ _ := add_le_add b0 b1

theorem latPt_apply (r : Fin 2 → Pl) (z : Fin 2 → ℤ) (i : Fin 2) : latPt r z i = z 0 * r 0 i + z 1 * r 1 i := by
  unfold latPt
  rw [Fin.sum_univ_two]
  simp

theorem recip_det (h : Indep a) : recip a 0 0 * recip a 1 1 - recip a 0 1 * recip a 1 0 ≠ 0 := by
  obtain ⟨e0, e1, e2, e3⟩ := recip_zero h
  have h' : a 0 0 * a 1 1 - a 0 1 * a 1 0 ≠ 0 := h
  rw [e0, e1, e2, e3]
  have : a 1 1 / (a 0 0 * a 1 1 - a 0 1 * a 1 0) * (a 0 0 / (a 0 0 * a 1 1 - a 0 1 * a 1 0)) -
      -a 1 0 / (a 0 0 * a 1 1 - a 0 1 * a 1 0) * (-a 0 1 / (a 0 0 * a 1 1 - a 0 1 * a 1 0)) =
      (a 0 0 * a 1 1 - a 0 1 * a 1 0) / ((a 0 0 * a 1 1 - a 0 1 * a 1 0) * (a 0 0 * a 1 1 - a 0 1 * a 1 0)) := by
    rw [div_mul_div_comm, div_mul_div_comm, ← sub_div]; congr 1; ring
  rw [this]
  exact div_ne_zero h' (mul_ne_zero h' h')

theorem rowDot_neg (z : Fin 2 → ℤ) (c : Matrix (Fin 2) (Fin 2) ℤ) : rowDot (-z) c = -rowDot z c := by
  funext j; simp [rowDot, Fin.sum_univ_two]

theorem latPt_neg (r : Fin 2 → Pl) (z : Fin 2 → ℤ) : latPt r (-z) = -latPt r z := by
  unfold latPt
  simp

theorem region_bounded {N : Num Pl 2} (hN : NumOk N) (h : Indep a) {fuel : ℕ} {v : Fin 2 → Pl} {coefs : Matrix (Fin 2) (Fin 2) ℤ} {R : List (Fin 2 → ℤ)}
    (hl : lll N.lstsq (recip a) 1.34 fuel = some (.ok (v, coefs))) (hR : voronoi N.lsq (N.sort v) v false 1e-9 fuel = some R) :
    Bornology.IsBounded (region (R.map fun z => (2 * Real.pi) • latPt (recip a) (rowDot z coefs))) := by
  obtain ⟨v', coefs', e, -, hdet, hcols, hli, -⟩ := C70_lll hN.lstsq (recip_li h) hl
  obtain ⟨rfl, rfl⟩ := Prod.mk.inj (Except.ok.inj e)
  obtain ⟨-, ⟨W, hW, hpar⟩, -, -, -⟩ := C72_voronoi hN.lsq (hN.sort v) hli hR
  obtain ⟨z0, ⟨hz0, p0⟩, -⟩ := hpar ![1, 0] ⟨0, by decide⟩
  obtain ⟨z1, ⟨hz1, p1⟩, -⟩ := hpar ![0, 1] ⟨1, by decide⟩
  have m0 := p0 0; have m1 := p0 1; have m2 := p1 0; have m3 := p1 1
  simp only [Matrix.cons_val_zero, Matrix.cons_val_one] at m0 m1 m2 m3
  have hzd : z0 0 * z1 1 - z0 1 * z1 0 ≠ 0 := by
    intro hz
    obtain ⟨p, hp⟩ : ∃ p, z0 0 = 2 * p + 1 := ⟨z0 0 / 2, by omega⟩
    obtain ⟨q, hq⟩ : ∃ q, z0 1 = 2 * q := ⟨z0 1 / 2, by omega⟩
    obtain ⟨t, ht⟩ : ∃ t, z1 0 = 2 * t := ⟨z1 0 / 2, by omega⟩
    obtain ⟨u, hu⟩ : ∃ u, z1 1 = 2 * u + 1 := ⟨z1 1 / 2, by omega⟩
    rw [hp, hq, ht, hu] at hz
    obtain ⟨n, hn⟩ : ∃ n : ℤ, 2 * n + 1 = 0 := ⟨2 * p * u + p + u - 2 * q * t, by linear_combination hz⟩
    omega
  have hcd : coefs 0 0 * coefs 1 1 - coefs 0 1 * coefs 1 0 ≠ 0 := by
    rw [← Matrix.det_fin_two]
    rcases hdet with e | e <;> rw [e] <;> decide
  set w : (Fin 2 → ℤ) → Pl := fun z => (2 * Real.pi) • latPt (recip a) (rowDot z coefs) with hw
  have hneg : ∀ z, w (-z) = -w z := fun z => by simp only [hw, rowDot_neg, latPt_neg, smul_neg]
  refine bounded_of (w0 := w z0) (w1 := w z1) (P := ‖w z0‖ ^ 2 / 2) (Q := ‖w z1‖ ^ 2 / 2) ?_ fun x hx => ?_
  · have e : w z0 0 * w z1 1 - w z0 1 * w z1 0 = (2 * Real.pi) ^ 2 * ((recip a 0 0 * recip a 1 1 - recip a 0 1 * recip a 1 0) *
        (((z0 0 * z1 1 - z0 1 * z1 0 : ℤ) : ℝ) * ((coefs 0 0 * coefs 1 1 - coefs 0 1 * coefs 1 0 : ℤ) : ℝ))) := by
      simp only [hw, PiLp.smul_apply, smul_eq_mul, latPt_apply, rowDot, Fin.sum_univ_two]
      push_cast
      ring
    rw [e]
    refine mul_ne_zero (pow_ne_zero 2 (by positivity)) (mul_ne_zero (recip_det h) (mul_ne_zero ?_ ?_))
    · exact Int.cast_ne_zero.mpr hzd
    · exact Int.cast_ne_zero.mpr hcd
  · have hm : ∀ z ∈ W, z ∈ R ∧ -z ∈ R := fun z hz => by
      rw [hW]
      exact ⟨List.mem_append_left _ hz, List.mem_append_right _ (List.mem_map.mpr ⟨z, hz, rfl⟩)⟩
    have key : ∀ z ∈ W, |⟪x, w z⟫| ≤ ‖w z‖ ^ 2 / 2 := fun z hz =>
      inner_bound (hx _ (List.mem_map.mpr ⟨z, (hm z hz).1, rfl⟩)) (by
        have := hx _ (List.mem_map.mpr ⟨-z, (hm z hz).2, rfl⟩)
        rw [← hneg z]; exact this)
    exact ⟨key z0 hz0, key z1 hz1⟩

/-! ### The box -/

theorem kMax_spec (l : List Pl) (hl : l ≠ []) (i : Fin 2) : (∀ v ∈ l, |v i| ≤ kMax l i) ∧ ∃ v ∈ l, |v i| = kMax l i := by
  induction l with
  | nil => exact absurd rfl hl
  | cons v l ih =>
    have e : kMax (v :: l) i = max |v i| (kMax l i) := rfl
    rw [e]
    by_cases hne : l = []
    · subst hne
      have : kMax [] i = 0 := rfl
      rw [this, max_eq_left (abs_nonneg _)]
      exact ⟨by simp, v, by simp⟩
    · obtain ⟨h1, w, hw, h2⟩ := ih hne
      refine ⟨fun u hu => ?_, ?_⟩
      · rcases List.mem_cons.mp hu with rfl | hu
        · exact le_max_left _ _
        · exact (h1 u hu).trans (le_max_right _ _)
      · rcases le_total |v i| (kMax l i) with h | h
        · exact ⟨w, List.mem_cons_of_mem _ hw, by rw [max_eq_right h, h2]⟩
        · exact ⟨v, List.mem_cons_self, by rw [max_eq_left h]⟩

theorem box_spec {vor : List Pl → List Pl} (hv : VorOk vor) {l : List Pl} (hb : Bornology.IsBounded (region l)) (i : Fin 2) :
    (∀ k ∈ region l, |k i| ≤ kMax (vor (0 :: l)) i) ∧ ∃ k ∈ region l, |k i| = kMax (vor (0 :: l)) i := by
  have hreg : region l = {x | ∀ p ∈ l, ‖x - 0‖ ≤ ‖x - p‖} := by simp [region]
  have hh := hv 0 l (hreg ▸ hb)
  rw [← hreg] at hh
  have h0 : (0 : Pl) ∈ region l := fun q _ => by simp
  have hne : vor (0 :: l) ≠ [] := by
    intro e
    rw [← hh, e] at h0
    simp at h0
  obtain ⟨h1, v, hvm, h2⟩ := kMax_spec _ hne i
  refine ⟨fun k hk => ?_, v, ?_, h2⟩
  · have hc : Convex ℝ {x : Pl | |x i| ≤ kMax (vor (0 :: l)) i} := by
      have : {x : Pl | |x i| ≤ kMax (vor (0 :: l)) i} = {x : Pl | x i ≤ kMax (vor (0 :: l)) i} ∩ {x : Pl | -kMax (vor (0 :: l)) i ≤ x i} := by
        ext x; simp only [Set.mem_setOf_eq, Set.mem_inter_iff, abs_le]; tauto
      rw [this]
      exact (convex_halfSpace_le (f := fun x : Pl => x i) ⟨fun _ _ => rfl, fun _ _ => rfl⟩ _).inter
        (convex_halfSpace_ge (f := fun x : Pl => x i) ⟨fun _ _ => rfl, fun _ _ => rfl⟩ _)
    rw [← hh] at hk
    exact convexHull_min (fun u hu => h1 u hu) hc hk
  · rw [← hh]
    exact subset_convexHull ℝ _ hvm

/-! ### If the matrix is symmetric -/

theorem latPt_reduced {v r : Fin 2 → Pl} {coefs : Matrix (Fin 2) (Fin 2) ℤ} (hcols : ∀ k, v k = ∑ j, coefs j k • r j) (z : Fin 2 → ℤ) :
    latPt v z = latPt r (rowDot z coefs.transpose) := by
  unfold latPt rowDot
  simp only [hcols, Fin.sum_univ_two, Matrix.transpose_apply]
  push_cast
  simp only [← Int.cast_smul_eq_zsmul ℝ]
  module

theorem exact_of_symm {N : Num Pl 2} (hN : NumOk N) (h : Indep a) {fuel : ℕ} {v : Fin 2 → Pl} {coefs : Matrix (Fin 2) (Fin 2) ℤ} {R : List (Fin 2 → ℤ)}
    (hl : lll N.lstsq (recip a) 1.34 fuel = some (.ok (v, coefs))) (hR : voronoi N.lsq (N.sort v) v false 1e-9 fuel = some R) (hs : coefs.transpose = coefs) :
    region (R.map fun z => (2 * Real.pi) • latPt (recip a) (rowDot z coefs)) = BZ a := by
  refine Set.Subset.antisymm (fun k hk => ?_) (bz_region h R coefs)
  obtain ⟨v', coefs', e, hspan, hdet, hcols, hli, -⟩ := C70_lll hN.lstsq (recip_li h) hl
  obtain ⟨rfl, rfl⟩ := Prod.mk.inj (Except.ok.inj e)
  obtain ⟨-, -, -, hcell, -⟩ := C72_voronoi hN.lsq (hN.sort v) hli hR
  have hpi : (0 : ℝ) < 2 * Real.pi := by positivity
  have scale : ∀ x : Pl, ‖k‖ ≤ ‖k - (2 * Real.pi) • x‖ ↔ ‖(2 * Real.pi)⁻¹ • k‖ ≤ ‖(2 * Real.pi)⁻¹ • k - x‖ := fun x => by
    have e1 : k = (2 * Real.pi) • ((2 * Real.pi)⁻¹ • k) := by rw [smul_smul, mul_inv_cancel₀ hpi.ne', one_smul]
    have e2 : k - (2 * Real.pi) • x = (2 * Real.pi) • ((2 * Real.pi)⁻¹ • k - x) := by rw [smul_sub, ← e1]
    rw [e2, norm_smul, norm_smul, norm_inv, Real.norm_of_nonneg hpi.le, inv_mul_le_iff₀ hpi]
  have hc : (2 * Real.pi)⁻¹ • k ∈ Cell v := (hcell _).mpr fun z hz => by
    rw [← scale, latPt_reduced hcols, hs]
    exact hk _ (List.mem_map.mpr ⟨z, hz, rfl⟩)
  refine (bz_iff h k).mpr fun z => ?_
  rw [scale]
  have hmem : latPt (recip a) z ∈ Submodule.span ℤ (Set.range v) := by
    rw [hspan]
    unfold latPt
    exact Submodule.sum_mem _ fun j _ => by
      rw [Int.cast_smul_eq_zsmul]
      exact Submodule.smul_mem _ _ (Submodule.subset_span ⟨j, rfl⟩)
  obtain ⟨c, hc'⟩ := (Submodule.mem_span_range_iff_exists_fun ℤ).mp hmem
  have : latPt (recip a) z = latPt v c := by
    rw [← hc']
    unfold latPt
    exact Finset.sum_congr rfl fun j _ => (Int.cast_smul_eq_zsmul ℝ _ _).symm
  rw [this]
  exact hc c

end Kwant.Bands2D
