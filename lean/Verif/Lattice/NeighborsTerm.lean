import Verif.Lattice.Neighbors
import Verif.Lattice.Counter
import Mathlib.Data.Finset.Sort
import Mathlib.Order.Interval.Finset.Fin

/-!
C104, continued: `neighbors` ends, for all sufficiently small tolerances.
-/

set_option linter.unusedSectionVars false

namespace Kwant.Lat
open Kwant.LLL Kwant.Cvp Kwant.Voronoi

variable {E : Type*} [NormedAddCommGroup E] [InnerProductSpace ℝ E] {D : ℕ} {L : Type*} [DecidableEq L]

/-- The n-th element of a finite set. -/
theorem exists_nth_finset (V : Finset ℝ) {n : ℕ} (h : n < V.card) : ∃ v ∈ V, (V.filter (· < v)).card = n := by
  let e := V.orderEmbOfFin rfl
  refine ⟨e ⟨n, h⟩, Finset.orderEmbOfFin_mem _ _ _, ?_⟩
  have : V.filter (· < e ⟨n, h⟩) = (Finset.Iio (⟨n, h⟩ : Fin V.card)).map e.toEmbedding := by
    ext x
    simp only [Finset.mem_filter, Finset.mem_map, Finset.mem_Iio]
    constructor
    · rintro ⟨h1, h2⟩
      have : x ∈ Set.range e := by rw [Finset.range_orderEmbOfFin]; exact h1
      obtain ⟨i, rfl⟩ := this
      exact ⟨i, e.lt_iff_lt.mp h2, rfl⟩
    · rintro ⟨i, hi, rfl⟩
      exact ⟨Finset.orderEmbOfFin_mem _ _ _, e.lt_iff_lt.mpr hi⟩
  rw [this, Finset.card_map, Fin.card_Iio]

/-- **C71**, grouping: the search ends if there are at least `n` different distances up to some bound, and they are separated by more than the tolerance. -/
theorem C71_groups_terminates {lsq : (Fin D → E) → E → Fin D → ℝ} {sort : (E → ℝ) → List (Fin D → ℤ) → List (Fin D → ℤ)} {basis : Fin D → E}
    (hs : SortOk basis sort) (hb : LinearIndependent ℝ basis) (hD : 1 ≤ D) (vec : E) {n : ℕ} (hn : 1 ≤ n) {rtol : ℝ} (hr : 0 ≤ rtol) {B : ℝ}
    (hsep : ∀ y z, dist basis (realPt basis (lsq basis vec)) y ≤ B → dist basis (realPt basis (lsq basis vec)) y < dist basis (realPt basis (lsq basis vec)) z →
      rtol * rad basis < dist basis (realPt basis (lsq basis vec)) z - dist basis (realPt basis (lsq basis vec)) y)
    {F : Finset (Fin D → ℤ)} (hF : ∀ z ∈ F, dist basis (realPt basis (lsq basis vec)) z ≤ B)
    (hcard : n ≤ (F.image (dist basis (realPt basis (lsq basis vec)))).card) :
    ∃ fuel R, cvp lsq sort vec basis n true rtol fuel = some R := by
  set x := lsq basis vec with hx
  set center : Fin D → ℤ := fun i => npRound (x i) with hcenter
  set ds := dist basis (realPt basis x) with hds
  have hrad := rad_pos hb hD
  -- a box that contains F
  obtain ⟨k, hk⟩ : ∃ k : ℕ, ∀ z ∈ F, z ∈ box center k := by
    refine ⟨∑ z ∈ F, ∑ i, (z i - center i).natAbs, fun z hz => ?_⟩
    rw [mem_box]
    intro i
    have h1 : (z i - center i).natAbs ≤ ∑ z ∈ F, ∑ i, (z i - center i).natAbs :=
      (Finset.single_le_sum (f := fun i => (z i - center i).natAbs) (fun _ _ => Nat.zero_le _) (Finset.mem_univ i)).trans
        (Finset.single_le_sum (f := fun z => ∑ i, (z i - center i).natAbs) (fun _ _ => Nat.zero_le _) hz)
    omega
  obtain ⟨M, hM⟩ := exists_nat_gt (((B / rad basis) + 1 + rtol) / 2)
  set l := max (max k M) n with hl
  have hlM : M ≤ l := le_trans (le_max_right _ _) (le_max_left _ _)
  have hlk : k ≤ l := le_trans (le_max_left _ _) (le_max_left _ _)
  have hln : n ≤ l := le_max_right _ _
  have hbig : B < (2 * (l : ℝ) - 1 - rtol) * rad basis := by
    have h1 : (M : ℝ) ≤ l := by exact_mod_cast hlM
    have h2 : B / rad basis < 2 * (l : ℝ) - 1 - rtol := by linarith
    rwa [div_lt_iff₀ hrad] at h2
  obtain ⟨hp, hsorted⟩ := hs (fun p => ‖p - realPt basis x‖) (box center l)
  set sp := sort (fun p => ‖p - realPt basis x‖) (box center l) with hsp
  have hpw : (sp.map ds).Pairwise (· ≤ ·) := List.pairwise_map.mpr hsorted
  -- the distance of the last group
  set V := ((sp.map ds).toFinset).filter (· ≤ B) with hV
  have hVn : n - 1 < V.card := by
    have : F.image ds ⊆ V := by
      intro y hy
      obtain ⟨z, hz, rfl⟩ := Finset.mem_image.mp hy
      rw [hV, Finset.mem_filter, List.mem_toFinset]
      exact ⟨List.mem_map.mpr ⟨z, hp.mem_iff.mpr (box_mono center hlk (hk z hz)), rfl⟩, hF z hz⟩
    have := Finset.card_le_card this
    omega
  obtain ⟨v, hvV, hvc⟩ := exists_nth_finset V hVn
  rw [hV, Finset.mem_filter, List.mem_toFinset] at hvV
  have hnd : nDist (rtol * rad basis) (n - 1) (sp.map ds) = some v := by
    refine nDist_spec (mul_nonneg hr hrad.le) hpw hvV.1 ?_ ?_
    · intro a ha b hb' hav hab
      obtain ⟨y, -, rfl⟩ := List.mem_map.mp ha
      obtain ⟨z, -, rfl⟩ := List.mem_map.mp hb'
      exact hsep y z (hav.trans hvV.2) hab
    · rw [← hvc, hV, Finset.filter_filter]
      congr 1
      refine Finset.filter_congr fun a _ => ?_
      exact ⟨fun h => ⟨h.le.trans hvV.2, h⟩, fun h => h.2⟩
  have hacc : accept basis l (trial sort basis (realPt basis x) center n true rtol l) := by
    unfold trial
    have hlen : ¬ (box center l).length < n := by
      rw [box_length]
      have : n ≤ (2 * l + 1) ^ D := calc n ≤ 2 * l + 1 := by omega
        _ = (2 * l + 1) ^ 1 := (pow_one _).symm
        _ ≤ (2 * l + 1) ^ D := Nat.pow_le_pow_right (by omega) hD
      omega
    rw [if_neg hlen]
    unfold select
    rw [if_pos rfl]
    simp only
    rw [← hsp, ← hds]
    unfold nDist at hnd
    simp only at hnd
    by_cases he : (boundaries (rtol * rad basis) (sp.map ds)).length = n - 1
    · rw [if_pos he] at hnd
      rw [if_neg (by omega), if_pos he]
      show List.getD _ _ 0 < _
      rw [List.getLast?_eq_getElem?] at hnd
      rw [List.getD_eq_getElem?_getD, hnd]
      exact lt_of_le_of_lt hvV.2 hbig
    · rw [if_neg he] at hnd
      obtain ⟨g, hg, hv⟩ := Option.bind_eq_some_iff.mp hnd
      have hlt : n - 1 < (boundaries (rtol * rad basis) (sp.map ds)).length := by
        by_contra hc
        rw [List.getElem?_eq_none (not_lt.mp hc)] at hg
        cases hg
      rw [if_neg (by omega), if_neg he]
      show List.getD _ _ 0 < _
      rw [List.getD_eq_getElem?_getD (l := boundaries _ _), hg]
      show List.getD _ g 0 < _
      rw [List.getD_eq_getElem?_getD, hv]
      exact lt_of_le_of_lt hvV.2 hbig
  obtain ⟨R, hR⟩ := loop_ends hacc (l - 1) 1 (by omega)
  exact ⟨l - 1 + 1, R, hR⟩

theorem nClosest_mono {N : Num E D} {aux : Aux E D} {offset pos : E} {n : ℕ} {group : Bool} {rtol : ℝ} {f g : ℕ} (h : f ≤ g) {R : List (Fin D → ℤ)}
    (hR : nClosest N aux offset pos n group rtol f = some R) : nClosest N aux offset pos n group rtol g = some R := by
  obtain ⟨Q, hQ, rfl⟩ := Option.map_eq_some_iff.mp hR
  unfold nClosest
  rw [show cvp N.lsq (N.sort aux.reduced) (pos - offset) aux.reduced n group rtol g = some Q from cvpLoop_mono hQ g h]
  rfl

/-- The distances of a pair of sublattices: at least `m` different ones up to `r`, which are separated by more than `tol`. -/
def PairSep (P : Poly E D L) (p : L × L) (m : ℕ) (r tol : ℝ) : Prop :=
  (∃ F : Finset (Fin D → ℤ), (∀ t ∈ F, ‖tagPos P.prim (P.offset p.1) t - tagPos P.prim (P.offset p.2) 0‖ ≤ r) ∧
    m ≤ (F.image fun t => ‖tagPos P.prim (P.offset p.1) t - tagPos P.prim (P.offset p.2) 0‖).card) ∧
  ∀ s t, ‖tagPos P.prim (P.offset p.1) s - tagPos P.prim (P.offset p.2) 0‖ ≤ r →
    ‖tagPos P.prim (P.offset p.1) s - tagPos P.prim (P.offset p.2) 0‖ < ‖tagPos P.prim (P.offset p.1) t - tagPos P.prim (P.offset p.2) 0‖ →
    tol < ‖tagPos P.prim (P.offset p.1) t - tagPos P.prim (P.offset p.2) 0‖ - ‖tagPos P.prim (P.offset p.1) s - tagPos P.prim (P.offset p.2) 0‖

theorem gap_le {d f d' f' h : ℝ} (hd : 0 ≤ d) (hd' : 0 ≤ d') (hf : 0 ≤ f) (hf' : 0 ≤ f') (e : f ^ 2 = d ^ 2 + h ^ 2) (e' : f' ^ 2 = d' ^ 2 + h ^ 2) (hlt : f < f') :
    d < d' ∧ f' - f ≤ d' - d := by
  have h1 : d < d' := by
    by_contra hc
    have : d' ^ 2 ≤ d ^ 2 := pow_le_pow_left₀ hd' (not_lt.mp hc) 2
    have : f ^ 2 < f' ^ 2 := pow_lt_pow_left₀ hlt hf two_ne_zero
    linarith
  refine ⟨h1, ?_⟩
  have hdf : d ≤ f := by
    rw [← abs_of_nonneg hd, ← abs_of_nonneg hf, ← sq_le_sq]
    nlinarith [sq_nonneg h]
  have hdf' : d' ≤ f' := by
    rw [← abs_of_nonneg hd', ← abs_of_nonneg hf', ← sq_le_sq]
    nlinarith [sq_nonneg h]
  by_contra hc
  have h2 : d' - d < f' - f := not_le.mp hc
  have h3 : (f' - f) * (f' + f) = (d' - d) * (d' + d) := by nlinarith
  have h4 : (d' - d) * (d' + d) ≤ (d' - d) * (f' + f) := mul_le_mul_of_nonneg_left (by linarith) (by linarith)
  have h5 : (d' - d) * (f' + f) < (f' - f) * (f' + f) := mul_lt_mul_of_pos_right h2 (by linarith)
  linarith

/-- **C104**: `neighbors` ends if, for every pair of sublattices, the first n + 1 distances are separated by more than the tolerance. -/
theorem C104_terminates {N : Num E D} (hN : NumOk N) {P : Poly E D L} (hne : P.lats ≠ []) (hD : 1 ≤ D) {aux : Aux E D} (h : AuxOk P.prim aux)
    {n : ℕ} {eps : ℝ} (he : 0 ≤ eps) {μ : ℝ} (hμ : IsShortest P.prim μ) (hsep : ∀ p ∈ sublatPairs P, ∃ r, PairSep P p (n + 1) r (eps * μ)) :
    ∃ fuel res, neighbors N aux P n eps fuel = some res := by
  obtain ⟨lat, rest, hlats⟩ := List.exists_cons_of_ne_nil hne
  -- the shortest vector
  obtain ⟨f1, R1, hR1⟩ := (C103_terminates hN h hD (P.offset lat) (tagPos P.prim (P.offset lat) 0) (n := 2) (by norm_num) 1e-9).1
  have hlen := (C103_nClosest hN h _ _ (by norm_num) hR1).1
  obtain ⟨a, b, rfl⟩ := getLast_two hlen
  -- the pairs
  have hpair : ∀ p ∈ sublatPairs P, ∃ f g, pairSites N aux P n eps f p = some g := by
    intro p hp
    obtain ⟨r, ⟨F, hF, hFc⟩, hs⟩ := hsep p hp
    set vec := tagPos P.prim (P.offset p.2) 0 - P.offset p.1 with hvec
    set ds := dist aux.reduced (realPt aux.reduced (N.lsq aux.reduced vec)) with hds
    have hfull : ∀ z, ‖tagPos P.prim (P.offset p.1) (aux.transf.mulVec z) - tagPos P.prim (P.offset p.2) 0‖ = ‖latPt aux.reduced z - vec‖ := fun z => tagPos_mulVec h _ _ _
    have hrad := rad_le_shortest h hμ
    -- the bound in the plane
    set hh := ‖vec - realPt aux.reduced (N.lsq aux.reduced vec)‖ with hhh
    have hpyth : ∀ z, ‖latPt aux.reduced z - vec‖ ^ 2 = ds z ^ 2 + hh ^ 2 := fun z => dist_proj hN.lsq _ _ z
    have hds0 : ∀ z, 0 ≤ ds z := fun z => norm_nonneg _
    have hle : ∀ z, ds z ≤ Real.sqrt (r ^ 2 - hh ^ 2) → 0 ≤ r → hh ≤ r → ‖latPt aux.reduced z - vec‖ ≤ r := by
      intro z hz h0 h1
      have e1 : ds z ^ 2 ≤ r ^ 2 - hh ^ 2 := by
        have h2 : 0 ≤ r ^ 2 - hh ^ 2 := by
          have : hh ^ 2 ≤ r ^ 2 := pow_le_pow_left₀ (norm_nonneg _) h1 2
          linarith
        calc ds z ^ 2 ≤ Real.sqrt (r ^ 2 - hh ^ 2) ^ 2 := pow_le_pow_left₀ (hds0 z) hz 2
          _ = r ^ 2 - hh ^ 2 := Real.sq_sqrt h2
      rw [← abs_of_nonneg (norm_nonneg (latPt aux.reduced z - vec)), ← abs_of_nonneg h0, ← sq_le_sq, hpyth]
      linarith
    have hge : ∀ z, ‖latPt aux.reduced z - vec‖ ≤ r → 0 ≤ r ∧ hh ≤ r ∧ ds z ≤ Real.sqrt (r ^ 2 - hh ^ 2) := by
      intro z hz
      have h0 : 0 ≤ r := (norm_nonneg _).trans hz
      have h1 : ds z ^ 2 + hh ^ 2 ≤ r ^ 2 := by
        rw [← hpyth]; exact pow_le_pow_left₀ (norm_nonneg _) hz 2
      refine ⟨h0, ?_, ?_⟩
      · rw [← abs_of_nonneg (show 0 ≤ hh from norm_nonneg _), ← abs_of_nonneg h0, ← sq_le_sq]
        nlinarith [sq_nonneg (ds z)]
      · exact Real.le_sqrt_of_sq_le (by linarith)
    -- transport of F
    let inv : (Fin D → ℤ) → (Fin D → ℤ) := fun t => (aux.transf⁻¹).mulVec t
    have hinv : ∀ t, aux.transf.mulVec (inv t) = t := fun t => by
      show aux.transf.mulVec ((aux.transf⁻¹).mulVec t) = t
      rw [Matrix.mulVec_mulVec, Matrix.mul_nonsing_inv _ h.isUnit, Matrix.one_mulVec]
    have hfi : ∀ t, ‖tagPos P.prim (P.offset p.1) t - tagPos P.prim (P.offset p.2) 0‖ = ‖latPt aux.reduced (inv t) - vec‖ := fun t => by
      rw [← hfull, hinv]
    have hFne : ∃ t, t ∈ F := by
      by_contra hc
      have : F = ∅ := Finset.eq_empty_of_forall_notMem fun t ht => hc ⟨t, ht⟩
      rw [this] at hFc
      simp at hFc
    obtain ⟨t0, ht0⟩ := hFne
    obtain ⟨hr0, hhr, -⟩ := hge (inv t0) (by rw [← hfi]; exact hF t0 ht0)
    obtain ⟨f, Q, hQ⟩ := C71_groups_terminates (lsq := N.lsq) (hN.sort aux.reduced) h.li hD vec (n := n + 1) (by omega) he (B := Real.sqrt (r ^ 2 - hh ^ 2))
      (by
        intro y z hy hyz
        have a1 : ‖latPt aux.reduced y - vec‖ ≤ r := hle y hy hr0 hhr
        have a2 : ‖latPt aux.reduced y - vec‖ < ‖latPt aux.reduced z - vec‖ := by
          by_contra hc
          have := (dist_mono hN.lsq aux.reduced vec z y).mpr (not_lt.mp hc)
          exact absurd hyz (not_lt.mpr this)
        have a3 := hs (aux.transf.mulVec y) (aux.transf.mulVec z) (by rw [hfull]; exact a1) (by rw [hfull, hfull]; exact a2)
        rw [hfull, hfull] at a3
        have a4 := (gap_le (hds0 y) (hds0 z) (norm_nonneg _) (norm_nonneg _) (hpyth y) (hpyth z) a2).2
        have a5 : eps * rad aux.reduced ≤ eps * μ := mul_le_mul_of_nonneg_left hrad he
        show eps * rad aux.reduced < ds z - ds y
        linarith)
      (F := F.image inv)
      (by
        intro z hz
        obtain ⟨t, ht, rfl⟩ := Finset.mem_image.mp hz
        exact (hge _ (by rw [← hfi]; exact hF t ht)).2.2)
      (by
        refine hFc.trans ?_
        have : (F.image fun t => ‖tagPos P.prim (P.offset p.1) t - tagPos P.prim (P.offset p.2) 0‖) = ((F.image inv).image ds).image fun x => Real.sqrt (x ^ 2 + hh ^ 2) := by
          rw [Finset.image_image, Finset.image_image]
          refine Finset.image_congr fun t _ => ?_
          show _ = Real.sqrt (ds (inv t) ^ 2 + hh ^ 2)
          rw [hfi, ← hpyth, Real.sqrt_sq (norm_nonneg _)]
        rw [this]
        exact Finset.card_image_le)
    have hc : nClosest N aux (P.offset p.1) (tagPos P.prim (P.offset p.2) 0) (n + 1) true eps f = some (Q.map fun z => aux.transf.mulVec z) := by
      unfold nClosest
      rw [hQ]
      rfl
    exact ⟨f, Option.isSome_iff_exists.mp (by unfold pairSites; simp only; rw [hc]; rfl)⟩
  obtain ⟨f2, sites, hf2⟩ := mapAll_ends (f := pairSites N aux P n eps)
    (fun n' m p g hnm hg => by
      unfold pairSites at hg ⊢
      obtain ⟨R, hR, rfl⟩ := Option.map_eq_some_iff.mp hg
      simp only
      rw [nClosest_mono hnm hR]
      rfl) (sublatPairs P) hpair
  refine ⟨max f1 f2, ?_⟩
  unfold neighbors
  rw [hlats, List.head?_cons, Option.bind_some]
  unfold shortestHopping
  rw [nClosest_mono (le_max_left f1 f2) hR1, Option.bind_some, show List.getLast? [a, b] = some b from rfl, Option.bind_some, hf2 _ (le_max_right _ _)]
  exact ⟨_, rfl⟩

/-! ### All lattices -/

/-- In a set of reals without accumulation points to the left, elements up to `r` are separated. -/
theorem exists_sep {S : Set ℝ} (hf : ∀ B, {x | x ∈ S ∧ x ≤ B}.Finite) (r : ℝ) : ∃ e > 0, ∀ x ∈ S, ∀ y ∈ S, x ≤ r → x < y → e < y - x := by
  set V := (hf (r + 1)).toFinset with hV
  have hm : ∀ x, x ∈ V ↔ x ∈ S ∧ x ≤ r + 1 := fun x => by rw [hV, Set.Finite.mem_toFinset]; rfl
  set G := ((V ×ˢ V).filter fun q => q.1 < q.2).image fun q => q.2 - q.1 with hG
  have hpos : ∀ g ∈ G, 0 < g := fun g hg => by
    obtain ⟨q, hq, rfl⟩ := Finset.mem_image.mp hg
    have := (Finset.mem_filter.mp hq).2
    linarith
  obtain ⟨m, hm0, hmle⟩ : ∃ m : ℝ, 0 < m ∧ ∀ g ∈ G, m ≤ g := by
    by_cases hne : G.Nonempty
    · exact ⟨G.min' hne, hpos _ (Finset.min'_mem _ _), fun g hg => Finset.min'_le _ _ hg⟩
    · exact ⟨1, one_pos, fun g hg => absurd ⟨g, hg⟩ hne⟩
  refine ⟨min m 1 / 2, by positivity, fun x hx y hy hxr hxy => ?_⟩
  have h1 : min m 1 ≤ m := min_le_left _ _
  have h2 : min m 1 ≤ 1 := min_le_right _ _
  have h3 : 0 < min m 1 := lt_min hm0 one_pos
  by_cases hyr : y ≤ r + 1
  · have := hmle (y - x) (Finset.mem_image.mpr ⟨(x, y), Finset.mem_filter.mpr ⟨Finset.mem_product.mpr ⟨(hm x).mpr ⟨hx, by linarith⟩, (hm y).mpr ⟨hy, hyr⟩⟩, hxy⟩, rfl⟩)
    linarith
  · linarith [not_le.mp hyr]

/-- Such a set, if infinite, has an n-th element. -/
theorem exists_nth {S : Set ℝ} (hf : ∀ B, {x | x ∈ S ∧ x ≤ B}.Finite) (hi : S.Infinite) (n : ℕ) : ∃ r ∈ S, {x | x ∈ S ∧ x < r}.encard = n := by
  obtain ⟨F, hF, hFc⟩ := hi.exists_subset_card_eq (n + 1)
  obtain ⟨B, hB⟩ := F.bddAbove
  set V := (hf B).toFinset with hV
  have hm : ∀ x, x ∈ V ↔ x ∈ S ∧ x ≤ B := fun x => by rw [hV, Set.Finite.mem_toFinset]; rfl
  have hc : n < V.card := by
    have : F ⊆ V := fun x hx => (hm x).mpr ⟨hF hx, hB hx⟩
    have := Finset.card_le_card this
    omega
  obtain ⟨v, hv, hvc⟩ := exists_nth_finset V hc
  refine ⟨v, ((hm v).mp hv).1, ?_⟩
  have e : ((V.filter (· < v) : Finset ℝ) : Set ℝ) = {x | x ∈ S ∧ x < v} := by
    ext x
    simp only [Finset.coe_filter, hm]
    exact ⟨fun h => ⟨h.1.1, h.2⟩, fun h => ⟨⟨h.1, h.2.le.trans ((hm v).mp hv).2⟩, h.2⟩⟩
  rw [← e, Set.encard_coe_eq_coe_finsetCard, hvc]

/-- Finitely many tags are close to a point. -/
theorem near_finite {prim : Fin D → E} (hb : LinearIndependent ℝ prim) (v : E) (B : ℝ) : {t : Fin D → ℤ | ‖latPt prim t + v‖ ≤ B}.Finite := by
  by_cases hD : D = 0
  · subst hD
    exact Set.toFinite _
  have hr := rad_pos hb (Nat.pos_of_ne_zero hD)
  obtain ⟨M, hM⟩ := exists_nat_gt ((B + ‖v‖) / (2 * rad prim))
  refine (box (0 : Fin D → ℤ) M).toFinset.finite_toSet.subset fun t ht => ?_
  rw [Finset.mem_coe, List.mem_toFinset, mem_box]
  intro i
  have h1 := coef_le hb (fun j => (t j : ℝ)) i
  have h2 : ‖latPt prim t‖ ≤ B + ‖v‖ := by
    have e : latPt prim t = (latPt prim t + v) - v := by abel
    rw [e]
    exact (norm_sub_le _ _).trans (by linarith [show ‖latPt prim t + v‖ ≤ B from ht])
  have h3 : |(t i : ℝ)| * (2 * rad prim) ≤ B + ‖v‖ := by
    calc |(t i : ℝ)| * (2 * rad prim) = 2 * |(t i : ℝ)| * rad prim := by ring
      _ ≤ ‖latPt prim t‖ := h1
      _ ≤ _ := h2
  have h4 : |(t i : ℝ)| < M := lt_of_le_of_lt ((le_div_iff₀ (by positivity)).mpr h3) hM
  have h5 : |t i| < (M : ℤ) := by exact_mod_cast h4
  rw [abs_lt] at h5
  simp only [Pi.zero_apply]
  omega

theorem dist_pair (P : Poly E D L) (a b : L) (s t : Fin D → ℤ) :
    tagPos P.prim (P.offset a) s - tagPos P.prim (P.offset b) t = latPt P.prim (s - t) + (P.offset a - P.offset b) := by
  unfold tagPos
  rw [latPt_sub']
  abel

theorem dists_finite {P : Poly E D L} (hb : LinearIndependent ℝ P.prim) (B : ℝ) : {x | x ∈ Dists P ∧ x ≤ B}.Finite := by
  have : {x | x ∈ Dists P ∧ x ≤ B} ⊆ ⋃ a ∈ P.lats.toFinset, ⋃ b ∈ P.lats.toFinset,
      (fun t => ‖latPt P.prim t + (P.offset a - P.offset b)‖) '' {t | ‖latPt P.prim t + (P.offset a - P.offset b)‖ ≤ B} := by
    rintro x ⟨⟨a, ha, b, hb', s, t, rfl⟩, hx⟩
    rw [dist_pair] at hx ⊢
    exact Set.mem_biUnion (List.mem_toFinset.mpr ha) (Set.mem_biUnion (List.mem_toFinset.mpr hb') ⟨s - t, hx, rfl⟩)
  exact Set.Finite.subset (Set.Finite.biUnion (Finset.finite_toSet _) fun a _ => Set.Finite.biUnion (Finset.finite_toSet _) fun b _ => (near_finite hb _ B).image _) this

/-- The distances of a pair of sublattices are unbounded. -/
theorem pair_infinite {P : Poly E D L} (hb : LinearIndependent ℝ P.prim) (hD : 1 ≤ D) (v : E) : (Set.range fun t : Fin D → ℤ => ‖latPt P.prim t + v‖).Infinite := by
  intro hfin
  obtain ⟨B, hB⟩ := hfin.bddAbove
  have h1 : (Set.univ : Set (Fin D → ℤ)).Finite := (near_finite hb v B).subset fun t _ => hB ⟨t, rfl⟩
  haveI : Nonempty (Fin D) := ⟨⟨0, hD⟩⟩
  exact Set.infinite_univ h1

/-- **C104**, without any hypothesis about distances: for every lattice and every n there is an n-th distance, and for all sufficiently small tolerances
`neighbors(n, eps)` ends, raises no exception, and returns exactly the hopping kinds at the n-th distance, one of each pair of a kind and its reverse. -/
theorem C104_total {N : Num E D} (hN : NumOk N) {P : Poly E D L} (hb : LinearIndependent ℝ P.prim) (hl : P.lats.Nodup) (hne : P.lats ≠ []) (hD : 1 ≤ D) {aux : Aux E D}
    (h : AuxOk P.prim aux) (n : ℕ) :
    ∃ r, IsNth P n r ∧ ∃ e > 0, ∀ eps, 0 < eps → eps ≤ e → ∃ fuel out, neighbors N aux P n eps fuel = some (some out) ∧ out.Nodup ∧
      ∀ k, k ∈ out ↔ k.famA ∈ P.lats ∧ k.famB ∈ P.lats ∧ P.lats.idxOf k.famA ≤ P.lats.idxOf k.famB ∧
        ‖tagPos P.prim (P.offset k.famA) k.delta - tagPos P.prim (P.offset k.famB) 0‖ = r ∧ (k.famA = k.famB → 0 ≤ toLex k.delta) := by
  -- the n-th distance
  obtain ⟨lat, hlat⟩ := List.exists_mem_of_ne_nil _ hne
  have hi : (Dists P).Infinite := by
    refine (pair_infinite hb hD (P.offset lat - P.offset lat)).mono ?_
    rintro _ ⟨t, rfl⟩
    exact ⟨lat, hlat, lat, hlat, t, 0, by rw [dist_pair, sub_zero]⟩
  obtain ⟨r, hrD, hrn⟩ := exists_nth (dists_finite hb) hi n
  refine ⟨r, ⟨hrD, hrn⟩, ?_⟩
  -- the shortest vectors
  obtain ⟨μ, hμ⟩ : ∃ μ, IsShortest P.prim μ := by
    have hfin : ∀ B, {x | x ∈ (fun t => ‖latPt P.prim t‖) '' {t | t ≠ 0} ∧ x ≤ B}.Finite := by
      intro B
      refine ((near_finite hb 0 B).image fun t => ‖latPt P.prim t + 0‖).subset ?_
      rintro x ⟨⟨t, -, rfl⟩, hx⟩
      exact ⟨t, by simpa using hx, by simp⟩
    have hinf : ((fun t => ‖latPt P.prim t‖) '' {t | t ≠ 0}).Infinite := by
      intro hf
      apply pair_infinite (P := P) hb hD 0
      refine (hf.insert 0).subset ?_
      rintro _ ⟨t, rfl⟩
      by_cases ht : t = 0
      · left; simp [ht, latPt_zero]
      · right; exact ⟨t, ht, by simp⟩
    obtain ⟨μ, ⟨t, ht, rfl⟩, hμc⟩ := exists_nth hfin hinf 0
    refine ⟨‖latPt P.prim t‖, ⟨t, ht, rfl⟩, fun z hz => ?_⟩
    by_contra hc
    have hempty := Set.encard_eq_zero.mp hμc
    have : ‖latPt P.prim z‖ ∈ ({x | x ∈ (fun t => ‖latPt P.prim t‖) '' {t | t ≠ 0} ∧ x < ‖latPt P.prim t‖} : Set ℝ) := ⟨⟨z, hz, rfl⟩, not_le.mp hc⟩
    rw [hempty] at this
    exact this
  have hμ0 : 0 < μ := by
    obtain ⟨z, hz, rfl⟩ := hμ.1
    exact norm_pos_iff.mpr (latPt_ne hb hz)
  -- a bound up to which every pair of sublattices has enough distances
  have hpair : ∀ p : L × L, p ∈ sublatPairs P → ∃ R : ℝ, ∃ F : Finset (Fin D → ℤ), (∀ t ∈ F, ‖tagPos P.prim (P.offset p.1) t - tagPos P.prim (P.offset p.2) 0‖ ≤ R) ∧
      n + 1 ≤ (F.image fun t => ‖tagPos P.prim (P.offset p.1) t - tagPos P.prim (P.offset p.2) 0‖).card := by
    intro p _
    have hinf := pair_infinite hb hD (P.offset p.1 - P.offset p.2)
    obtain ⟨G, hG, hGc⟩ := hinf.exists_subset_card_eq (n + 1)
    choose g hg using fun x : G => hG x.2
    obtain ⟨R, hR⟩ := G.bddAbove
    have hgx : ∀ x : G, ‖tagPos P.prim (P.offset p.1) (g x) - tagPos P.prim (P.offset p.2) 0‖ = x := fun x => by
      rw [dist_pair, sub_zero]; exact hg x
    refine ⟨R, Finset.univ.image g, fun t ht => ?_, ?_⟩
    · obtain ⟨x, -, rfl⟩ := Finset.mem_image.mp ht
      rw [hgx]
      exact hR x.2
    · rw [Finset.image_image]
      have : (Finset.univ.image ((fun t => ‖tagPos P.prim (P.offset p.1) t - tagPos P.prim (P.offset p.2) 0‖) ∘ g)) = G := by
        ext x
        simp only [Finset.mem_image, Finset.mem_univ, true_and, Function.comp, hgx]
        exact ⟨fun ⟨y, hy⟩ => hy ▸ y.2, fun hx => ⟨⟨x, hx⟩, rfl⟩⟩
      rw [this, hGc]
  choose! Rp hRp using hpair
  set R := r + ∑ p ∈ (sublatPairs P).toFinset, |Rp p| with hRdef
  have hRr : r ≤ R := by
    have : 0 ≤ ∑ p ∈ (sublatPairs P).toFinset, |Rp p| := Finset.sum_nonneg fun _ _ => abs_nonneg _
    linarith
  have hr0 : 0 ≤ r := by
    obtain ⟨a, -, b, -, s, t, e⟩ := hrD
    rw [e]; exact norm_nonneg _
  have hRR : ∀ p ∈ sublatPairs P, Rp p ≤ R := fun p hp => by
    have h1 : |Rp p| ≤ ∑ p ∈ (sublatPairs P).toFinset, |Rp p| :=
      Finset.single_le_sum (f := fun p => |Rp p|) (fun _ _ => abs_nonneg _) (List.mem_toFinset.mpr hp)
    have h2 := le_abs_self (Rp p)
    linarith
  obtain ⟨e, he, hes⟩ := exists_sep (dists_finite hb) R
  refine ⟨e / μ, by positivity, fun eps heps hle => ?_⟩
  have hle' : eps * μ ≤ e := (le_div_iff₀ hμ0).mp hle
  have hsep : Separated P r (eps * μ) := fun x hx y hy hxr hxy => lt_of_le_of_lt hle' (hes x hx y hy (hxr.trans hRr) hxy)
  obtain ⟨fuel, res, hres⟩ := C104_terminates hN hne hD h (n := n) heps.le hμ fun p hp => by
    obtain ⟨h1, h2, -⟩ := (mem_sublatPairs P p).mp hp
    obtain ⟨F, hF, hFc⟩ := hRp p hp
    exact ⟨R, ⟨F, fun t ht => (hF t ht).trans (hRR p hp), hFc⟩, fun s t hs hst =>
      lt_of_le_of_lt hle' (hes _ ⟨p.1, h1, p.2, h2, s, 0, rfl⟩ _ ⟨p.1, h1, p.2, h2, t, 0, rfl⟩ hs hst)⟩
  obtain ⟨out, rfl, ho⟩ := C104_neighbors hN hb hl h ⟨hrD, hrn⟩ heps hμ hsep hres
  exact ⟨fuel, out, hres, ho⟩

/-- The hypotheses are satisfied: two sublattices of the lattice with primitive vectors (1, 0), (2, 1). -/
example : ∃ (N : Num E2 2) (P : Poly E2 2 Bool) (aux : Aux E2 2), NumOk N ∧ LinearIndependent ℝ P.prim ∧ P.lats.Nodup ∧ P.lats ≠ [] ∧ AuxOk P.prim aux := by
  obtain ⟨N, hN⟩ := exists_num (E := E2) 2
  obtain ⟨_, _, aux, -, hao⟩ := C103_init hN slant_li
  exact ⟨N, ⟨slant, [false, true], fun b => if b then !₂[1 / 2, 0] else 0⟩, aux, hN, slant_li, by simp, by simp, hao⟩

end Kwant.Lat
