import Verif.Wrap.Bands2DMain
import Verif.Lattice.Counter
import Mathlib.Analysis.Convex.KreinMilman
import Mathlib.Analysis.Convex.Topology

/-! C187: termination, contracts that can be met, an example and the counterexample. -/

set_option linter.unusedSectionVars false

namespace Kwant.Bands2D
open Kwant.LLL Kwant.Cvp Kwant.Voronoi Kwant.Lat Kwant.Spectrum

local notation "⟪" x ", " y "⟫" => inner ℝ x y

variable {V H : Type} {a : Fin 2 → Pl}

/-! ### Termination -/

theorem vertex_mono {lsq : (Fin 2 → Pl) → Pl → Fin 2 → ℝ} {sort : (Pl → ℝ) → List (Fin 2 → ℤ) → List (Fin 2 → ℤ)} {basis : Fin 2 → Pl} (n m : ℕ) (d : Fin 2 → ℝ)
    (b : Fin 2 → ℤ) (hnm : n ≤ m) (h : vertexOf lsq sort basis n d = some b) : vertexOf lsq sort basis m d = some b := by
  unfold vertexOf at h ⊢
  cases hc : cvp lsq sort (realPt basis d) basis 1 false 1e-9 n with
  | none => rw [hc] at h; cases h
  | some R =>
    rw [hc] at h
    have : cvp lsq sort (realPt basis d) basis 1 false 1e-9 m = some R := cvpLoop_mono hc m hnm
    rw [this]; exact h

theorem mapAll_mono {α β : Type*} {f g : α → Option β} (h : ∀ a b, f a = some b → g a = some b) : ∀ (l : List α) (r : List β), mapAll f l = some r → mapAll g l = some r
  | [], r, hr => hr
  | x :: l, r, hr => by
    unfold mapAll at hr ⊢
    obtain ⟨b, hb, hr⟩ := Option.bind_eq_some_iff.mp hr
    obtain ⟨t, ht, rfl⟩ := Option.map_eq_some_iff.mp hr
    rw [h x b hb, Option.bind_some, mapAll_mono h l t ht]
    rfl

theorem voronoi_mono {lsq : (Fin 2 → Pl) → Pl → Fin 2 → ℝ} {sort : (Pl → ℝ) → List (Fin 2 → ℤ) → List (Fin 2 → ℤ)} {basis : Fin 2 → Pl} {red : Bool} {rtol : ℝ} {n m : ℕ}
    (hnm : n ≤ m) {R : List (Fin 2 → ℤ)} (h : voronoi lsq sort basis red rtol n = some R) : voronoi lsq sort basis red rtol m = some R := by
  unfold voronoi at h ⊢
  obtain ⟨vs, hvs, hR⟩ := Option.map_eq_some_iff.mp h
  rw [mapAll_mono (fun d b => vertex_mono n m d b hnm) _ _ hvs]
  exact congrArg some hR

theorem klat_ends {N : Num Pl 2} (hN : NumOk N) (h : Indep a) : ∃ fuel0 klat, ∀ fuel ≥ fuel0, klatPoints N a fuel = some (.ok klat) := by
  obtain ⟨f0, q, hq⟩ := C70_terminates N.lstsq (recip_li h) (c := 1.34) (by norm_num)
  obtain ⟨v, coefs, rfl, -, -, -, hli, -⟩ := C70_lll hN.lstsq (recip_li h) hq
  obtain ⟨f1, R, hR⟩ := C72_terminates hN.lsq (hN.sort v) hli false 1e-9
  refine ⟨max f0 f1, ((fun _ => 0) :: R.map fun z => rowDot z coefs).map fun p => (2 * Real.pi) • latPt (recip a) p, fun fuel hf => ?_⟩
  unfold klatPoints
  rw [ClosestSite.lll_mono (le_trans (le_max_left _ _) hf) hq]
  simp only
  rw [voronoi_mono (le_trans (le_max_right _ _) hf) hR]
  rfl

variable {E : Type}

/-- **C187**: the calculation of the zone ends and does not fail; the only errors left are those of `plotter.spectrum` (C174). -/
theorem C187_succeeds {N : Num Pl 2} (hN : NumOk N) (vor : List Pl → List Pl) (eig : H → List E) {periods : Fin 2 → Fin 2 → ℝ} (names : List String)
    (ham : (String → Option (PVal V)) → H) (kx ky : Grid) (params : Dict String (PVal V)) (mask : Bool) (extend : ℝ) (hi : Indep fun i => WithLp.toLp 2 (periods i)) :
    ∃ fuel0 r, (∀ fuel ≥ fuel0, plot2dBands N vor eig (some ⟨2, 2, periods, names, .finite, ham⟩) kx ky params mask extend fuel = some r) ∧
      ((∃ p, r = .ok p) ∨ ∃ e, r = .error (.plot e)) := by
  obtain ⟨f0, klat, hk⟩ := klat_ends hN hi
  have key : ∀ fuel ≥ f0, plot2dBands N vor eig (some ⟨2, 2, periods, names, .finite, ham⟩) kx ky params mask extend fuel =
      match generate (hamK N (fun i => WithLp.toLp 2 (periods i)) names ham) eig params (if mask then some (outsideBz klat) else none)
        ⟨"k_x", (axisPoints kx extend (kMax (vor klat) 0)).map PVal.num⟩ (some ⟨"k_y", (axisPoints ky extend (kMax (vor klat) 1)).map PVal.num⟩) with
      | .error e => some (.error (.plot e))
      | .ok s => some (.ok (⟨"k_x", (axisPoints kx extend (kMax (vor klat) 0)).map PVal.num⟩, ⟨"k_y", (axisPoints ky extend (kMax (vor klat) 1)).map PVal.num⟩, s)) := by
    intro fuel hf
    rw [plot_eq]
    unfold bands
    rw [hk fuel hf]
    rfl
  cases hg : generate (hamK N (fun i => WithLp.toLp 2 (periods i)) names ham) eig params (if mask then some (outsideBz klat) else none)
      ⟨"k_x", (axisPoints kx extend (kMax (vor klat) 0)).map PVal.num⟩ (some ⟨"k_y", (axisPoints ky extend (kMax (vor klat) 1)).map PVal.num⟩) with
  | error e =>
    rw [hg] at key
    exact ⟨f0, _, key, Or.inr ⟨e, rfl⟩⟩
  | ok s =>
    rw [hg] at key
    exact ⟨f0, _, key, Or.inl ⟨_, rfl⟩⟩

/-! ### The contract of `scipy.spatial.Voronoi` can be met -/

theorem norm_le_iff' (x q : Pl) : ‖x‖ ≤ ‖x - q‖ ↔ 2 * ⟪x, q⟫ ≤ ‖q‖ ^ 2 := by
  rw [← sq_le_sq₀ (norm_nonneg _) (norm_nonneg _), norm_sub_sq_real]
  constructor <;> intro h <;> linarith

theorem region_convex (l : List Pl) : Convex ℝ (region l) := by
  intro x hx y hy s t hs ht hst q hq
  have h1 := (norm_le_iff' x q).mp (hx q hq)
  have h2 := (norm_le_iff' y q).mp (hy q hq)
  rw [norm_le_iff', inner_add_left, real_inner_smul_left, real_inner_smul_left]
  nlinarith [mul_le_mul_of_nonneg_left h1 hs, mul_le_mul_of_nonneg_left h2 ht]

theorem region_closed (l : List Pl) : IsClosed (region l) := by
  have : region l = ⋂ q ∈ {q | q ∈ l}, {x : Pl | ‖x‖ ≤ ‖x - q‖} := by ext x; simp [region]
  rw [this]
  exact isClosed_biInter fun q _ => isClosed_le continuous_norm (by fun_prop)

/-- The conditions that are equalities at a point. -/
noncomputable def tight (l : List Pl) (x : Pl) : Set Pl := {q | q ∈ l ∧ 2 * ⟪x, q⟫ = ‖q‖ ^ 2}

theorem extreme_inj (l : List Pl) {x y : Pl} (hx : x ∈ (region l).extremePoints ℝ) (hy : y ∈ region l) (ht : tight l x = tight l y) : x = y := by
  by_contra hne
  obtain ⟨hxr, hxe⟩ := mem_extremePoints.mp hx
  -- a small step from x away from y
  have hstep : ∃ ε : ℝ, 0 < ε ∧ ∀ q ∈ l, 2 * ⟪x + ε • (x - y), q⟫ ≤ ‖q‖ ^ 2 := by
    have : ∀ l' : List Pl, (∀ q ∈ l', q ∈ l) → ∃ ε : ℝ, 0 < ε ∧ ∀ q ∈ l', ∀ δ, 0 ≤ δ → δ ≤ ε → 2 * ⟪x + δ • (x - y), q⟫ ≤ ‖q‖ ^ 2 := by
      intro l'
      induction l' with
      | nil => exact fun _ => ⟨1, one_pos, by simp⟩
      | cons q l' ih =>
        intro hl
        obtain ⟨ε, hε, h⟩ := ih fun q hq => hl q (List.mem_cons_of_mem _ hq)
        have hql := hl q List.mem_cons_self
        have hq := (norm_le_iff' x q).mp (hxr q hql)
        have hqe : ∀ δ : ℝ, 2 * ⟪x + δ • (x - y), q⟫ = 2 * ⟪x, q⟫ + δ * (2 * ⟪x, q⟫ - 2 * ⟪y, q⟫) := fun δ => by
          rw [inner_add_left, real_inner_smul_left, inner_sub_left]; ring
        rcases hq.eq_or_lt with e | e
        · have hy' : 2 * ⟪y, q⟫ = ‖q‖ ^ 2 := (ht ▸ (⟨hql, e⟩ : q ∈ tight l x) : q ∈ tight l y).2
          refine ⟨ε, hε, fun p hp δ hδ hδε => ?_⟩
          rcases List.mem_cons.mp hp with rfl | hp
          · rw [hqe, e, hy']; linarith
          · exact h p hp δ hδ hδε
        · set t := |2 * ⟪x, q⟫ - 2 * ⟪y, q⟫| + 1 with htdef
          have htp : 0 < t := by positivity
          refine ⟨min ε ((‖q‖ ^ 2 - 2 * ⟪x, q⟫) / t), lt_min hε (div_pos (by linarith) htp), fun p hp δ hδ hδε => ?_⟩
          rcases List.mem_cons.mp hp with rfl | hp
          · rw [hqe]
            have b1 : δ * t ≤ ‖p‖ ^ 2 - 2 * ⟪x, p⟫ := (le_div_iff₀ htp).mp (hδε.trans (min_le_right _ _))
            have b2 : δ * (2 * ⟪x, p⟫ - 2 * ⟪y, p⟫) ≤ δ * t := mul_le_mul_of_nonneg_left (by rw [htdef]; linarith [le_abs_self (2 * ⟪x, p⟫ - 2 * ⟪y, p⟫)]) hδ
            linarith
          · exact h p hp δ hδ (hδε.trans (min_le_left _ _))
    obtain ⟨ε, hε, h⟩ := this l fun _ h => h
    exact ⟨ε, hε, fun q hq => h q hq ε hε.le le_rfl⟩
  obtain ⟨ε, hε, h⟩ := hstep
  set z := x + ε • (x - y) with hz
  have hzr : z ∈ region l := fun q hq => (norm_le_iff' z q).mpr (h q hq)
  have hseg : x ∈ openSegment ℝ z y := by
    refine ⟨1 / (1 + ε), ε / (1 + ε), by positivity, by positivity, by field_simp, ?_⟩
    rw [hz]
    have h1 : (1 : ℝ) + ε ≠ 0 := by positivity
    have : (1 / (1 + ε)) • (x + ε • (x - y)) + (ε / (1 + ε)) • y = (1 / (1 + ε) * (1 + ε)) • x + (ε / (1 + ε) - 1 / (1 + ε) * ε) • y := by module
    rw [this, one_div_mul_cancel h1, one_div_mul_eq_div, sub_self, zero_smul, add_zero, one_smul]
  have := (hxe z hzr y hy hseg).2
  exact hne this.symm

theorem extreme_finite (l : List Pl) : ((region l).extremePoints ℝ).Finite := by
  have hfin : {S : Set Pl | S ⊆ {q | q ∈ l}}.Finite := Set.Finite.finite_subsets (List.finite_toSet l)
  refine Set.Finite.of_finite_image (f := tight l) (hfin.subset ?_) fun x hx y hy e => extreme_inj l hx (extremePoints_subset hy) e
  rintro _ ⟨x, -, rfl⟩ q hq
  exact hq.1

theorem region_hull (l : List Pl) (hb : Bornology.IsBounded (region l)) : ∃ vs : List Pl, convexHull ℝ {v | v ∈ vs} = region l := by
  obtain ⟨vs, hvs⟩ : ∃ vs : List Pl, {v | v ∈ vs} = (region l).extremePoints ℝ := by
    refine ⟨(extreme_finite l).toFinset.toList, ?_⟩
    ext v
    simp
  refine ⟨vs, ?_⟩
  have hc : IsCompact (region l) := Metric.isCompact_of_isClosed_isBounded (region_closed l) hb
  have := closure_convexHull_extremePoints hc (region_convex l)
  rw [← this, hvs]
  exact ((extreme_finite l).isClosed_convexHull (𝕜 := ℝ)).closure_eq.symm

/-- There is a function that meets the contract of `scipy.spatial.Voronoi`. -/
theorem exists_vor : ∃ vor, VorOk vor := by
  have hex : ∀ pts : List Pl, ∃ vs : List Pl, ∀ p0 l, pts = p0 :: l → Bornology.IsBounded {x | ∀ p ∈ l, ‖x - p0‖ ≤ ‖x - p‖} →
      convexHull ℝ {v | v ∈ vs} = {x | ∀ p ∈ l, ‖x - p0‖ ≤ ‖x - p‖} := by
    intro pts
    cases pts with
    | nil => exact ⟨[], fun p0 l h => by cases h⟩
    | cons p0 l =>
      by_cases hb : Bornology.IsBounded {x | ∀ p ∈ l, ‖x - p0‖ ≤ ‖x - p‖}
      · have himg : {x | ∀ p ∈ l, ‖x - p0‖ ≤ ‖x - p‖} = (fun x => x + p0) '' region (l.map fun p => p - p0) := by
          ext x
          simp only [Set.mem_setOf_eq, Set.mem_image, region, List.mem_map, forall_exists_index, and_imp, forall_apply_eq_imp_iff₂]
          constructor
          · intro h
            exact ⟨x - p0, fun p hp => by rw [sub_sub_sub_cancel_right]; exact h p hp, sub_add_cancel _ _⟩
          · rintro ⟨y, hy, rfl⟩ p hp
            rw [add_sub_cancel_right]
            have := hy p hp
            rwa [show y - (p - p0) = y + p0 - p by abel] at this
        have hb' : Bornology.IsBounded (region (l.map fun p => p - p0)) := by
          have := hb.vadd (-p0)
          refine this.subset fun x hx => ?_
          refine ⟨x + p0, ?_, by simp⟩
          rw [himg]
          exact ⟨x, hx, rfl⟩
        obtain ⟨vs, hvs⟩ := region_hull _ hb'
        refine ⟨vs.map fun v => v + p0, fun q0 l' e _ => ?_⟩
        obtain ⟨rfl, rfl⟩ := List.cons.inj e
        have hset : {v | v ∈ vs.map fun v => v + p0} = (fun x => x + p0) '' {v | v ∈ vs} := by
          ext v
          exact List.mem_map
        rw [himg, hset, ← hvs]
        have := convexHull_vadd (𝕜 := ℝ) p0 {v | v ∈ vs}
        simpa only [← Set.image_vadd, vadd_eq_add, add_comm p0] using this
      · exact ⟨[], fun q0 l' e h => by obtain ⟨rfl, rfl⟩ := List.cons.inj e; exact absurd h hb⟩
  choose vor hvor using hex
  exact ⟨vor, fun p0 l hb => hvor _ p0 l rfl hb⟩

/-! ### The counterexample -/

/-- Periods that are neither orthogonal nor short. -/
def skewPeriods : Fin 2 → Fin 2 → ℝ := ![![1, -3], ![0, 1]]

/-- The vectors of the symmetry. -/
noncomputable def skew (i : Fin 2) : Pl := WithLp.toLp 2 (skewPeriods i)

theorem skew_indep : Indep skew := by
  show (1 : ℝ) * 1 - -3 * 0 ≠ 0
  norm_num

theorem skew_recip : recip skew 0 = mk 1 0 ∧ recip skew 1 = mk 3 1 := by
  obtain ⟨e0, e1, e2, e3⟩ := recip_zero skew_indep
  have q : skew 0 0 = 1 ∧ skew 0 1 = -3 ∧ skew 1 0 = 0 ∧ skew 1 1 = 1 := ⟨rfl, rfl, rfl, rfl⟩
  rw [q.1, q.2.1, q.2.2.1, q.2.2.2] at e0 e1 e2 e3
  constructor <;> ext i <;> rcases Fin.exists_fin_two.mp ⟨i, rfl⟩ with rfl | rfl
  · rw [e0]; simp [mk]
  · rw [e1]; simp [mk]
  · rw [e2]; simp [mk]
  · rw [e3]; simp [mk]

theorem norm_mk (x y : ℝ) : ‖mk x y‖ ^ 2 = x ^ 2 + y ^ 2 := by
  rw [← real_inner_self_eq_norm_sq, inner_two]
  simp [mk]; ring

theorem skew_lll {N : Num Pl 2} (hN : NumOk N) {fuel : ℕ} {v : Fin 2 → Pl} {coefs : Matrix (Fin 2) (Fin 2) ℤ}
    (hl : lll N.lstsq (recip skew) 1.34 fuel = some (.ok (v, coefs))) : v 0 = mk 1 0 ∧ v 1 = mk 0 1 ∧ coefs = !![1, -3; 0, 1] := by
  have hr := recip_li skew_indep
  obtain ⟨v', coefs', e, -, -, hcols, -, -⟩ := C70_lll hN.lstsq hr hl
  obtain ⟨rfl, rfl⟩ := Prod.mk.inj (Except.ok.inj e)
  obtain ⟨s, hs, hv⟩ := lll_vecs hl
  have q0 : rows (recip skew) 0 = mk 1 0 := skew_recip.1
  have q1 : rows (recip skew) 1 = mk 3 1 := skew_recip.2
  obtain ⟨i0, i1, i2, i3, -⟩ := init_two (rows (recip skew))
  rw [q0, q1] at i1 i3
  rw [q0] at i0 i2
  have hg : gsCoef (mk 3 1) (mk 1 0) = 3 := by
    unfold gsCoef
    rw [norm_mk, inner_two]
    simp [mk]
  have hm : mk 3 1 - (3 : ℝ) • mk 1 0 = mk 0 1 := by
    ext i
    fin_cases i <;> simp [mk]
  rw [hg] at i1 i3
  rw [hm] at i3
  have hro : npRound (3 : ℝ) = 3 := by simpa using npRound_int 3
  rw [hro] at i1
  push_cast at i1
  rw [hm] at i1
  generalize initSt 2 (rows (recip skew)) = s0 at *
  have hlov : lovasz 1.34 0 s0 := by
    unfold lovasz
    rw [i2, zero_add, i3, norm_mk, norm_mk]
    norm_num
  have := loop_now hlov fuel hs
  subst this
  have hv0 : v 0 = mk 1 0 := by rw [hv]; exact i0
  have hv1 : v 1 = mk 0 1 := by rw [hv]; exact i1
  refine ⟨hv0, hv1, coefs_unique hr hcols fun k => ?_⟩
  rw [Fin.sum_univ_two, skew_recip.1, skew_recip.2]
  rcases Fin.exists_fin_two.mp ⟨k, rfl⟩ with rfl | rfl
  · rw [hv0]; simp
  · rw [hv1, ← hm]
    simp only [Matrix.of_apply, Matrix.cons_val', Matrix.cons_val_zero, Matrix.cons_val_one, Matrix.cons_val_fin_one, ← Int.cast_smul_eq_zsmul ℝ]
    push_cast
    module

/-- **C187**, counterexample: for the periods (1, -3), (0, 1) of the square lattice the momentum (1.8 π, 0) is plotted with `mask_brillouin_zone=True`, but it is outside of
the first Brillouin zone (which is the square |k_x|, |k_y| ≤ π). -/
theorem C187_counterexample {N : Num Pl 2} (hN : NumOk N) (vor : List Pl → List Pl) :
    (∃ fuel0, ∀ fuel ≥ fuel0, ∃ (x y : Axis String (PVal Unit)) (s : Arr ℝ),
      plot2dBands N vor (fun h : ℝ => [h]) (some ⟨2, 2, skewPeriods, ["k_x", "k_y"], .finite, fun _ => 0⟩) (.points [1.8 * Real.pi]) (.points [0]) [] true 0 fuel = some (.ok (x, y, s)) ∧
      plotMpl2 x y s = [[(some (.num (1.8 * Real.pi)), some (.num 0), some 0)]]) ∧
    mk (1.8 * Real.pi) 0 ∉ BZ fun i => WithLp.toLp 2 (skewPeriods i) := by
  have hpi := Real.pi_pos
  constructor
  · obtain ⟨f0, klat, hk⟩ := klat_ends hN skew_indep
    refine ⟨f0, fun fuel hf => ?_⟩
    obtain ⟨v, coefs, R, hl, hR, hkl⟩ := klat_spec (hk fuel hf)
    obtain ⟨v', coefs', e, -, -, hcols, hli, -⟩ := C70_lll hN.lstsq (recip_li skew_indep) hl
    obtain ⟨rfl, rfl⟩ := Prod.mk.inj (Except.ok.inj e)
    obtain ⟨hv0, hv1, rfl⟩ := skew_lll hN hl
    obtain ⟨-, -, hmin, -, -⟩ := C72_voronoi hN.lsq (hN.sort v) hli hR
    have hnorm : ∀ z : Fin 2 → ℤ, ‖latPt v z‖ ^ 2 = (z 0 : ℝ) ^ 2 + (z 1 : ℝ) ^ 2 := fun z => by
      rw [← real_inner_self_eq_norm_sq, inner_two, latPt_apply, latPt_apply, hv0, hv1]
      simp [mk]; ring
    have hsmall : ∀ z ∈ R, -1 ≤ z 1 ∧ z 1 ≤ 1 := fun z hz => by
      have h := (hmin z hz).2 (fun i => z i % 2) fun i => Int.emod_emod_of_dvd _ dvd_rfl
      have h2 := pow_le_pow_left₀ (norm_nonneg _) h 2
      rw [hnorm, hnorm] at h2
      have h3 : z 0 ^ 2 + z 1 ^ 2 ≤ (z 0 % 2) ^ 2 + (z 1 % 2) ^ 2 := by exact_mod_cast h2
      have b0 : (z 0 % 2) ^ 2 ≤ z 0 ^ 2 := by
        rcases Int.emod_two_eq_zero_or_one (z 0) with q | q <;> rw [q]
        · positivity
        · have : z 0 ≠ 0 := fun e => by rw [e] at q; cases q
          nlinarith [Int.one_le_abs this, sq_abs (z 0), abs_nonneg (z 0)]
      have b1 : (z 1 % 2) ^ 2 ≤ 1 := by
        rcases Int.emod_two_eq_zero_or_one (z 1) with q | q <;> rw [q] <;> norm_num
      constructor <;> nlinarith
    have hout : outsideBz klat [("k_x", (.num (1.8 * Real.pi) : PVal Unit)), ("k_y", .num 0)] = false := by
      rw [hkl, outside_iff, kOf_point]
      intro q hq
      obtain ⟨z, hz, rfl⟩ := List.mem_map.mp hq
      obtain ⟨l1, l2⟩ := hsmall z hz
      rw [norm_le_iff']
      have hw : (2 * Real.pi) • latPt (recip skew) (rowDot z !![1, -3; 0, 1]) =
          mk (2 * Real.pi * ((3 * z 1 - 8 * z 0 : ℤ) : ℝ)) (2 * Real.pi * ((z 1 - 3 * z 0 : ℤ) : ℝ)) := by
        ext i
        rw [PiLp.smul_apply, latPt_apply, skew_recip.1, skew_recip.2]
        rcases Fin.exists_fin_two.mp ⟨i, rfl⟩ with rfl | rfl
        · simp [mk, rowDot, Fin.sum_univ_two]; ring
        · simp [mk, rowDot, Fin.sum_univ_two]; ring
      rw [hw, norm_mk, inner_two]
      set X : ℤ := 3 * z 1 - 8 * z 0 with hX
      set Y : ℤ := z 1 - 3 * z 0 with hY
      have hXY : (1.8 : ℝ) * X ≤ (X : ℝ) ^ 2 + (Y : ℝ) ^ 2 := by
        rcases lt_trichotomy X 1 with h | h | h
        · have : X ≤ 0 := by omega
          have h' : (X : ℝ) ≤ 0 := by exact_mod_cast this
          nlinarith [sq_nonneg (X : ℝ), sq_nonneg (Y : ℝ)]
        · have hY0 : Y ≠ 0 := by omega
          have : (1 : ℝ) ≤ (Y : ℝ) ^ 2 := by
            have : 1 ≤ Y ^ 2 := by nlinarith [Int.one_le_abs hY0, sq_abs Y, abs_nonneg Y]
            exact_mod_cast this
          rw [h]; push_cast; linarith
        · have : 2 ≤ X := by omega
          have h' : (2 : ℝ) ≤ X := by exact_mod_cast this
          nlinarith [sq_nonneg (Y : ℝ)]
      simp only [mk]
      simp only [Matrix.cons_val_zero, Matrix.cons_val_one, Matrix.cons_val_fin_one]
      nlinarith [mul_le_mul_of_nonneg_left hXY (by positivity : (0 : ℝ) ≤ 4 * Real.pi ^ 2)]
    refine ⟨⟨"k_x", [.num (1.8 * Real.pi)]⟩, ⟨"k_y", [.num 0]⟩, ⟨1, 1, 1, [some 0]⟩, ?_, rfl⟩
    rw [plot_eq]
    unfold bands
    rw [show klatPoints N (fun i => WithLp.toLp 2 (skewPeriods i)) fuel = some (.ok klat) from hk fuel hf]
    have hgen : generate (hamK N (fun i => WithLp.toLp 2 (skewPeriods i)) ["k_x", "k_y"] fun _ => (0 : ℝ)) (fun h : ℝ => [h]) [] (some (outsideBz klat))
        ⟨"k_x", [(.num (1.8 * Real.pi) : PVal Unit)]⟩ (some ⟨"k_y", [.num 0]⟩) = .ok ⟨1, 1, 1, [some 0]⟩ := by
      have he : energies (hamK N (fun i => WithLp.toLp 2 (skewPeriods i)) ["k_x", "k_y"] fun _ => (0 : ℝ)) (fun h : ℝ => [h]) [] (some (outsideBz klat))
          [("k_x", (.num (1.8 * Real.pi) : PVal Unit)), ("k_y", .num 0)] = some [0] := by
        unfold energies
        simp only [hout]
        rfl
      unfold generate points
      simp only [List.flatMap_cons, List.flatMap_nil, List.map_cons, List.map_nil, List.append_nil, he]
      rfl
    simp only [axisPoints, List.map_cons, List.map_nil, if_true, hgen]
  · intro h
    have hG : Reciprocal skew (mk (2 * Real.pi) 0) := by
      intro i
      rcases Fin.exists_fin_two.mp ⟨i, rfl⟩ with rfl | rfl
      · exact ⟨1, by rw [inner_two]; simp [mk, skew, skewPeriods]⟩
      · exact ⟨0, by rw [inner_two]; simp [mk, skew, skewPeriods]⟩
    have h1 := h _ hG
    have e : mk (1.8 * Real.pi) 0 - mk (2 * Real.pi) 0 = mk (1.8 * Real.pi - 2 * Real.pi) 0 := by
      ext i
      fin_cases i <;> simp [mk]
    rw [e] at h1
    have h2 := pow_le_pow_left₀ (norm_nonneg _) h1 2
    rw [norm_mk, norm_mk] at h2
    nlinarith

/-! ### Example: the triangular lattice -/

/-- The periods of graphene. -/
noncomputable def triPeriods : Fin 2 → Fin 2 → ℝ := ![![1, 0], ![1 / 2, √3 / 2]]

/-- The hypotheses of the theorems hold for graphene. -/
theorem C187_example : Indep (fun i => WithLp.toLp 2 (triPeriods i)) ∧
    ∀ l : Fin 2, 2 * |triPeriods 0 0 * triPeriods 1 0 + triPeriods 0 1 * triPeriods 1 1| ≤ triPeriods l 0 ^ 2 + triPeriods l 1 ^ 2 := by
  constructor
  · show (1 : ℝ) * (√3 / 2) - 0 * (1 / 2) ≠ 0
    rw [one_mul, zero_mul, sub_zero]
    positivity
  · intro l
    have h3 : (√3 / 2) ^ 2 = (3 / 4 : ℝ) := by rw [div_pow, Real.sq_sqrt (by norm_num)]; norm_num
    rcases Fin.exists_fin_two.mp ⟨l, rfl⟩ with rfl | rfl
    · show 2 * |(1 : ℝ) * (1 / 2) + 0 * (√3 / 2)| ≤ 1 ^ 2 + 0 ^ 2
      norm_num
    · show 2 * |(1 : ℝ) * (1 / 2) + 0 * (√3 / 2)| ≤ (1 / 2) ^ 2 + (√3 / 2) ^ 2
      rw [h3]; norm_num

end Kwant.Bands2D
