import Verif.Lattice.Lattice
import Mathlib.Data.List.Lex
import Mathlib.Algebra.Order.Group.PiLex
import Mathlib.Data.Set.Card

/-!
C104: kwant/lattice.py, `Polyatomic.neighbors` (l.283-362).

Simplifications as in `Lattice.lean`.  `np.lexsort` of different tags is an insertion sort (all sorts give the same result).
-/

set_option linter.unusedSectionVars false

namespace Kwant.Cvp

theorem boundaries_cons (tol a b : ℝ) (l : List ℝ) :
    boundaries tol (a :: b :: l) = (if tol < b - a then [0] else []) ++ (boundaries tol (b :: l)).map Nat.succ := by
  unfold boundaries
  simp only [List.length_cons, Nat.add_sub_cancel]
  rw [List.range_succ_eq_map, List.filter_cons, List.filter_map]
  have e : ((fun k => decide (tol < (a :: b :: l).getD (k + 1) 0 - (a :: b :: l).getD k 0)) ∘ Nat.succ) =
      fun k => decide (tol < (b :: l).getD (k + 1) 0 - (b :: l).getD k 0) := by
    funext k; rfl
  rw [e]
  by_cases h : tol < b - a
  · rw [if_pos h, if_pos (by simpa using h)]; rfl
  · rw [if_neg h, if_neg (by simpa using h)]; rfl

/-- The number of groups is at most the number of different distances. -/
theorem gaps_card {tol : ℝ} (ht : 0 ≤ tol) {l : List ℝ} (hl : l.Pairwise (· ≤ ·)) (h : l ≠ []) : gaps tol l + 1 ≤ l.toFinset.card := by
  induction l with
  | nil => exact absurd rfl h
  | cons a l ih =>
    cases l with
    | nil => simp [gaps]
    | cons b l =>
      have ih' := ih (List.pairwise_cons.mp hl).2 (by simp)
      show (if tol < b - a then 1 else 0) + gaps tol (b :: l) + 1 ≤ _
      rw [List.toFinset_cons]
      split
      · next hab =>
        have : a ∉ (b :: l).toFinset := by
          rw [List.mem_toFinset]
          intro hm
          have hba : b ≤ a := by
            rcases List.mem_cons.mp hm with rfl | hm
            · exact le_rfl
            · exact List.rel_of_pairwise_cons (List.pairwise_cons.mp hl).2 hm
          linarith
        rw [Finset.card_insert_of_notMem this]
        omega
      · have := Finset.card_le_card (Finset.subset_insert a (b :: l).toFinset)
        omega

/-- The result of `cvp` is not empty. -/
theorem cvp_ne_nil {E : Type*} [NormedAddCommGroup E] [InnerProductSpace ℝ E] {D : ℕ} {lsq : (Fin D → E) → E → Fin D → ℝ}
    {sort : (E → ℝ) → List (Fin D → ℤ) → List (Fin D → ℤ)} {basis : Fin D → E} (hs : SortOk basis sort) {vec : E} {n : ℕ} (hn : 1 ≤ n) {group : Bool} {rtol : ℝ} {fuel : ℕ}
    {R : List (Fin D → ℤ)} (h : cvp lsq sort vec basis n group rtol fuel = some R) : R ≠ [] := by
  obtain ⟨l, -, dn, rt, ht, -⟩ := loop_spec h
  obtain ⟨hlen, hsel⟩ := trial_some ht
  obtain ⟨hp, -⟩ := hs (fun p => ‖p - realPt basis (lsq basis vec)‖) (box (fun i => Kwant.LLL.npRound (lsq basis vec i)) l)
  have hsl : 1 ≤ (sort (fun p => ‖p - realPt basis (lsq basis vec)‖) (box (fun i => Kwant.LLL.npRound (lsq basis vec i)) l)).length := by
    rw [hp.length_eq]; omega
  unfold select at hsel
  simp only at hsel
  have ne : ∀ m : ℕ, 1 ≤ m → (sort (fun p => ‖p - realPt basis (lsq basis vec)‖) (box (fun i => Kwant.LLL.npRound (lsq basis vec i)) l)).take m ≠ [] := by
    intro m hm e
    have := congrArg List.length e
    rw [List.length_take, List.length_nil] at this
    omega
  split at hsel
  · split at hsel
    · cases hsel
    · split at hsel
      · obtain ⟨-, h2⟩ := Prod.mk.inj (Option.some.inj hsel)
        obtain ⟨rfl, -⟩ := Prod.mk.inj h2
        intro e; rw [e] at hsl; simp at hsl
      · obtain ⟨-, h2⟩ := Prod.mk.inj (Option.some.inj hsel)
        obtain ⟨rfl, -⟩ := Prod.mk.inj h2
        exact ne _ (by omega)
  · obtain ⟨-, h2⟩ := Prod.mk.inj (Option.some.inj hsel)
    obtain ⟨rfl, -⟩ := Prod.mk.inj h2
    exact ne _ hn

end Kwant.Cvp

namespace Kwant.Lat
open Kwant.LLL Kwant.Cvp Kwant.Voronoi

variable {E : Type*} [NormedAddCommGroup E] [InnerProductSpace ℝ E] {D : ℕ} {L : Type*} [DecidableEq L]

/-! ### The model -/

/-- `HoppingKind(delta, family_a, family_b)` -/
structure Kind (D : ℕ) (L : Type*) where
  delta : Fin D → ℤ
  famA : L
  famB : L

/-- `sls[0].n_closest(sls[0].pos(([0] * sls[0].lattice_dim)), 2)[-1]` (l.311-312) -/
noncomputable def shortestHopping (N : Num E D) (aux : Aux E D) (P : Poly E D L) (lat : L) (fuel : ℕ) : Option (Fin D → ℤ) :=
  (nClosest N aux (P.offset lat) (tagPos P.prim (P.offset lat) 0) 2 false 1e-9 fuel).bind List.getLast?

/-- `sublat_pairs` (l.316-317) -/
def sublatPairs (P : Poly E D L) : List (L × L) := (P.lats.product P.lats).filter fun p => P.lats.idxOf p.2 ≥ P.lats.idxOf p.1

/-- The body of the first loop (l.331-336): `i.n_closest(origin, n=n+1, group_by_length=True, rtol=rtol)` with the position `origin` of the site `j(0, ..., 0)`,
and the distances of these sites from the origin. -/
noncomputable def pairSites (N : Num E D) (aux : Aux E D) (P : Poly E D L) (n : ℕ) (rtol : ℝ) (fuel : ℕ) (p : L × L) : Option (L × L × List ((Fin D → ℤ) × ℝ)) :=
  let origin := tagPos P.prim (P.offset p.2) 0
  (nClosest N aux (P.offset p.1) origin (n + 1) true rtol fuel).map fun tags => (p.1, p.2, tags.map fun tag => (tag, ‖tagPos P.prim (P.offset p.1) tag - origin‖))

/-- `n_dist` (l.339-344), for the sorted distances; `none` stands for `IndexError`. -/
noncomputable def nDist (eps : ℝ) (n : ℕ) (d : List ℝ) : Option ℝ :=
  let gb := boundaries eps d
  if gb.length = n then d.getLast? else gb[n]?.bind fun k => d[k]?

/-- `tags[np.lexsort(tags.T[::-1])][::-1]` (l.355): lexicographic order, the first coordinate first, reversed. -/
noncomputable def lexDesc (tags : List (Fin D → ℤ)) : List (Fin D → ℤ) := (tags.insertionSort fun a b => toLex a ≤ toLex b).reverse

/-- The body of the second loop (l.348-361).  (The sublattices `i`, `j` of the first loop are called `j`, `i` there.) -/
noncomputable def pairKinds (eps nDist : ℝ) (g : L × L × List ((Fin D → ℤ) × ℝ)) : List (Kind D L) :=
  let tags := lexDesc ((g.2.2.filter fun t => |t.2 - nDist| < eps).map Prod.fst)
  let tags := if g.1 = g.2.1 ∧ 1 < tags.length then tags.take (tags.length / 2) else tags
  tags.map fun tag => ⟨tag, g.1, g.2.1⟩

/-- `Polyatomic.neighbors(n, eps)` (l.283-362).  The inner `none` stands for `IndexError`, the outer one for too little fuel (or no sublattices). -/
noncomputable def neighbors (N : Num E D) (aux : Aux E D) (P : Poly E D L) (n : ℕ) (eps : ℝ) (fuel : ℕ) : Option (Option (List (Kind D L))) :=
  P.lats.head?.bind fun lat =>
  (shortestHopping N aux P lat fuel).bind fun shortest =>
  (mapAll (pairSites N aux P n eps fuel) (sublatPairs P)).map fun sites =>
    let eps' := eps * ‖latPt P.prim shortest‖
    let distances := (sites.flatMap fun g => g.2.2.map Prod.snd).insertionSort (· ≤ ·)
    (nDist eps' n distances).map fun nd => sites.flatMap (pairKinds eps' nd)

/-! ### Specification -/

/-- All the distances between sites of the lattice. -/
def Dists (P : Poly E D L) : Set ℝ :=
  {r | ∃ a ∈ P.lats, ∃ b ∈ P.lats, ∃ s t, r = ‖tagPos P.prim (P.offset a) s - tagPos P.prim (P.offset b) t‖}

/-- `r` is the n-th distance, counting from zero: there are exactly `n` smaller ones. -/
def IsNth (P : Poly E D L) (n : ℕ) (r : ℝ) : Prop := r ∈ Dists P ∧ {x | x ∈ Dists P ∧ x < r}.encard = n

/-- The length of the shortest lattice vectors. -/
def IsShortest (prim : Fin D → E) (μ : ℝ) : Prop := (∃ z, z ≠ 0 ∧ ‖latPt prim z‖ = μ) ∧ ∀ z, z ≠ 0 → μ ≤ ‖latPt prim z‖

/-- Different distances up to `r` differ by more than `tol`. -/
def Separated (P : Poly E D L) (r tol : ℝ) : Prop := ∀ x ∈ Dists P, ∀ y ∈ Dists P, x ≤ r → x < y → tol < y - x

/-- The hopping between the sites `x`, `y` (from `y` to `x`) matches the `HoppingKind` (builder.py l.387-389). -/
def Matches (k : Kind D L) (x y : L × (Fin D → ℤ)) : Prop := x.1 = k.famA ∧ y.1 = k.famB ∧ x.2 - y.2 = k.delta

/-! ### Lemmas -/

theorem nDist_cons (tol a b : ℝ) (n : ℕ) (l : List ℝ) :
    nDist tol n (a :: b :: l) = if tol < b - a then (if n = 0 then some a else nDist tol (n - 1) (b :: l)) else nDist tol n (b :: l) := by
  unfold nDist
  simp only [boundaries_cons]
  by_cases h : tol < b - a
  · rw [if_pos h, if_pos h]
    cases n with
    | zero => simp
    | succ n =>
      simp only [List.singleton_append, List.length_cons, List.length_map, Nat.add_right_cancel_iff, List.getElem?_cons_succ, List.getElem?_map, Nat.add_sub_cancel,
        Nat.succ_ne_zero, if_false, List.getLast?_cons_cons]
      congr 1
      rw [Option.bind_map]
      rfl
  · rw [if_neg h, if_neg h]
    simp only [List.nil_append, List.length_map, List.getElem?_map, List.getLast?_cons_cons]
    congr 1
    rw [Option.bind_map]
    rfl

theorem nDist_spec {tol : ℝ} (ht : 0 ≤ tol) {v : ℝ} {d : List ℝ} (hd : d.Pairwise (· ≤ ·)) (hv : v ∈ d) (hsep : ∀ x ∈ d, ∀ y ∈ d, x ≤ v → x < y → tol < y - x) {n : ℕ}
    (hn : (d.toFinset.filter (· < v)).card = n) : nDist tol n d = some v := by
  induction d generalizing n with
  | nil => cases hv
  | cons a l ih =>
    cases l with
    | nil =>
      obtain rfl : v = a := by simpa using hv
      have : n = 0 := by
        rw [← hn, Finset.card_eq_zero, Finset.filter_eq_empty_iff]
        intro x hx
        have : x = v := by simpa using hx
        rw [this]; exact lt_irrefl _
      subst this
      rfl
    | cons b l =>
      have hd' := (List.pairwise_cons.mp hd).2
      have hab : a ≤ b := (List.pairwise_cons.mp hd).1 b (by simp)
      have hall : ∀ y ∈ b :: l, a ≤ y := (List.pairwise_cons.mp hd).1
      have hsep' : ∀ x ∈ b :: l, ∀ y ∈ b :: l, x ≤ v → x < y → tol < y - x := fun x hx y hy => hsep x (List.mem_cons_of_mem _ hx) y (List.mem_cons_of_mem _ hy)
      rw [nDist_cons]
      rcases hab.lt_or_eq with hlt | rfl
      · -- a new group
        have hav : a ≤ v := by
          rcases List.mem_cons.mp hv with rfl | h
          · exact le_rfl
          · exact hall _ h
        rw [if_pos (hsep a (by simp) b (by simp) hav hlt)]
        have hna : a ∉ (b :: l).toFinset := by
          rw [List.mem_toFinset]
          intro hm
          have hba : b ≤ a := by
            rcases List.mem_cons.mp hm with rfl | hm
            · exact le_rfl
            · exact List.rel_of_pairwise_cons hd' hm
          linarith
        rcases hav.lt_or_eq with hlt' | rfl
        · have hv' : v ∈ b :: l := by
            rcases List.mem_cons.mp hv with rfl | h
            · exact absurd hlt' (lt_irrefl _)
            · exact h
          rw [List.toFinset_cons, Finset.filter_insert, if_pos hlt', Finset.card_insert_of_notMem (fun h => hna (Finset.mem_filter.mp h).1)] at hn
          rw [if_neg (by omega)]
          exact ih hd' hv' hsep' (by omega)
        · have : n = 0 := by
            rw [← hn, Finset.card_eq_zero, Finset.filter_eq_empty_iff]
            intro x hx hxa
            rw [List.mem_toFinset] at hx
            rcases List.mem_cons.mp hx with rfl | h
            · exact lt_irrefl _ hxa
            · exact absurd hxa (not_lt.mpr (hall _ h))
          rw [if_pos this]
      · rw [if_neg (by rw [sub_self]; exact not_lt.mpr ht)]
        refine ih hd' ?_ hsep' ?_
        · rcases List.mem_cons.mp hv with rfl | h
          · simp
          · exact h
        · rw [← hn, List.toFinset_cons (l := a :: l), Finset.insert_eq_of_mem (by simp)]

theorem getLast_two {α : Type*} {R : List α} (h : R.length = 2) : ∃ a b, R = [a, b] := by
  match R, h with
  | [a, b], _ => exact ⟨a, b, rfl⟩

/-- The shortest lattice vectors. -/
theorem shortest_spec {N : Num E D} (hN : NumOk N) {P : Poly E D L} {aux : Aux E D} (h : AuxOk P.prim aux) (hb : LinearIndependent ℝ P.prim) {lat : L} {fuel : ℕ}
    {t : Fin D → ℤ} (ht : shortestHopping N aux P lat fuel = some t) {μ : ℝ} (hμ : IsShortest P.prim μ) : t ≠ 0 ∧ ‖latPt P.prim t‖ = μ := by
  obtain ⟨R, hR, hl⟩ := Option.bind_eq_some_iff.mp ht
  obtain ⟨h1, h2, h3, h4⟩ := C103_nClosest hN h _ _ (by norm_num) hR
  have e : ∀ s, ‖tagPos P.prim (P.offset lat) s - tagPos P.prim (P.offset lat) 0‖ = ‖latPt P.prim s‖ := fun s => by
    unfold tagPos
    rw [latPt_zero, zero_add, add_sub_cancel_right]
  simp only [e] at h3 h4
  obtain ⟨a, b, rfl⟩ := getLast_two h1
  obtain rfl : b = t := by simpa using hl
  have hz : ∀ s, ‖latPt P.prim s‖ ≤ 0 → s = 0 := fun s hs => by
    by_contra hc
    exact latPt_ne hb hc (norm_le_zero_iff.mp hs)
  have hab : a ≠ b := by simpa using h2
  have hle : ‖latPt P.prim a‖ ≤ ‖latPt P.prim b‖ := by simpa using h3
  have hb0 : b ≠ 0 := by
    rintro rfl
    rw [latPt_zero, norm_zero] at hle
    exact hab (hz a hle)
  have ha0 : a = 0 := by
    by_contra hc
    have : (0 : Fin D → ℤ) ∉ [a, b] := by simp [Ne.symm hc, Ne.symm hb0]
    have := h4 0 this b (by simp)
    rw [latPt_zero, norm_zero] at this
    exact hb0 (hz b this)
  refine ⟨hb0, le_antisymm ?_ (hμ.2 b hb0)⟩
  obtain ⟨z, hz0, hzμ⟩ := hμ.1
  rw [← hzμ]
  by_cases hzb : z = b
  · rw [hzb]
  · exact h4 z (by simp [hzb, hz0, ha0]) b (by simp)

theorem rad_le_shortest {P : Poly E D L} {aux : Aux E D} (h : AuxOk P.prim aux) {μ : ℝ} (hμ : IsShortest P.prim μ) : rad aux.reduced ≤ μ := by
  obtain ⟨t, ht, rfl⟩ := hμ.1
  obtain ⟨z, rfl⟩ := mulVec_surj h t
  rw [latPt_mulVec h]
  have hz : z ≠ 0 := by
    rintro rfl
    exact ht (Matrix.mulVec_zero _)
  obtain ⟨i, hi⟩ := Function.ne_iff.mp hz
  have h1 := coef_le h.li (fun j => (z j : ℝ)) i
  have h2 : (1 : ℝ) ≤ |(z i : ℝ)| := by
    have : (1 : ℤ) ≤ |z i| := Int.one_le_abs hi
    exact_mod_cast this
  have hr := rad_pos h.li (Fin.pos i)
  have : rad aux.reduced ≤ 2 * |(z i : ℝ)| * rad aux.reduced := by nlinarith
  exact this.trans h1

/-- The search for a pair of sublattices returns different tags, among them all the sites up to the n-th distance. -/
theorem pair_all {N : Num E D} (hN : NumOk N) {P : Poly E D L} {aux : Aux E D} (h : AuxOk P.prim aux) {n : ℕ} {r : ℝ} (hr : IsNth P n r) {rtol : ℝ} (ht : 0 ≤ rtol)
    {fuel : ℕ} {p : L × L} (h1 : p.1 ∈ P.lats) (h2 : p.2 ∈ P.lats) {R : List (Fin D → ℤ)}
    (hR : nClosest N aux (P.offset p.1) (tagPos P.prim (P.offset p.2) 0) (n + 1) true rtol fuel = some R) :
    R.Nodup ∧ ∀ t, ‖tagPos P.prim (P.offset p.1) t - tagPos P.prim (P.offset p.2) 0‖ ≤ r → t ∈ R := by
  obtain ⟨Q, hQ, rfl⟩ := Option.map_eq_some_iff.mp hR
  obtain ⟨g1, g2, g3, g4⟩ := C71_groups (hN.sort _) h.li (by omega) hQ
  have hne := cvp_ne_nil (hN.sort _) (by omega) hQ
  set vec := tagPos P.prim (P.offset p.2) 0 - P.offset p.1 with hvec
  set ds := dist aux.reduced (realPt aux.reduced (N.lsq aux.reduced vec)) with hds
  have hfull : ∀ z, ‖tagPos P.prim (P.offset p.1) (aux.transf.mulVec z) - tagPos P.prim (P.offset p.2) 0‖ = ‖latPt aux.reduced z - vec‖ := fun z => tagPos_mulVec h _ _ _
  refine ⟨g1.map fun y z e => mulVec_inj h e, fun t htr => ?_⟩
  obtain ⟨z, rfl⟩ := mulVec_surj h t
  rw [hfull] at htr
  by_contra hc
  have hz : z ∉ Q := fun hm => hc (List.mem_map.mpr ⟨z, hm, rfl⟩)
  have hrad : 0 ≤ rad aux.reduced := by
    unfold rad
    positivity
  have hlt : ∀ y ∈ Q, ‖latPt aux.reduced y - vec‖ < r := fun y hy => by
    have a1 := g4 z hz y hy
    have a2 : ¬ ds z ≤ ds y := by
      have : 0 ≤ rtol * rad aux.reduced := mul_nonneg ht hrad
      intro hle
      have : ds y + rtol * rad aux.reduced < ds z := a1
      linarith
    rw [dist_mono hN.lsq] at a2
    exact lt_of_lt_of_le (not_le.mp a2) htr
  -- count the distances
  have hcard : (Q.map ds).toFinset.card ≤ n := by
    have e1 : (Q.map ds).toFinset = ((Q.map fun y => ‖latPt aux.reduced y - vec‖).toFinset).image
        fun x => Real.sqrt (x ^ 2 - ‖vec - realPt aux.reduced (N.lsq aux.reduced vec)‖ ^ 2) := by
      ext x
      simp only [List.mem_toFinset, List.mem_map, Finset.mem_image, exists_exists_and_eq_and]
      refine exists_congr fun y => and_congr_right fun _ => ?_
      rw [dist_proj hN.lsq, add_sub_cancel_right, Real.sqrt_sq (show 0 ≤ dist aux.reduced (realPt aux.reduced (N.lsq aux.reduced vec)) y from norm_nonneg _)]
    rw [e1]
    refine Finset.card_image_le.trans ?_
    have hsub : (((Q.map fun y => ‖latPt aux.reduced y - vec‖).toFinset : Finset ℝ) : Set ℝ) ⊆ {x | x ∈ Dists P ∧ x < r} := by
      intro x hx
      simp only [Finset.mem_coe, List.mem_toFinset, List.mem_map] at hx
      obtain ⟨y, hy, rfl⟩ := hx
      exact ⟨⟨p.1, h1, p.2, h2, aux.transf.mulVec y, 0, (hfull y).symm⟩, hlt y hy⟩
    have := Set.encard_le_encard hsub
    rw [hr.2, Set.encard_coe_eq_coe_finsetCard] at this
    exact_mod_cast this
  have := gaps_card (mul_nonneg ht hrad) g2 (by simpa using hne)
  have g3' : gaps (rtol * rad aux.reduced) (Q.map ds) + 1 = n + 1 := g3
  omega

/-! ### The lexicographically larger half -/

theorem split_sorted {α : Type*} (p : α → Bool) {l : List α} (h : l.Pairwise fun a b => p b = true → p a = true) : l = l.filter p ++ l.filter fun a => !p a := by
  induction l with
  | nil => rfl
  | cons a l ih =>
    obtain ⟨h1, h2⟩ := List.pairwise_cons.mp h
    by_cases ha : p a = true
    · rw [List.filter_cons_of_pos ha, List.filter_cons_of_neg (by simpa using ha), List.cons_append, ← ih h2]
    · rw [List.filter_cons_of_neg ha, List.filter_cons_of_pos (by simpa using ha)]
      have e : l.filter p = [] := List.filter_eq_nil_iff.mpr fun b hb hpb => ha (h1 b hb hpb)
      have := ih h2
      rw [e, List.nil_append] at this
      rw [e, List.nil_append, ← this]

theorem lexDesc_perm (l : List (Fin D → ℤ)) : (lexDesc l).Perm l := (List.reverse_perm _).trans (List.perm_insertionSort _ _)

theorem lexDesc_sorted (l : List (Fin D → ℤ)) : (lexDesc l).Pairwise fun a b => toLex b ≤ toLex a := by
  unfold lexDesc
  rw [List.pairwise_reverse]
  haveI : Std.Total (fun a b : Fin D → ℤ => toLex a ≤ toLex b) := ⟨fun a b => le_total _ _⟩
  haveI : IsTrans (Fin D → ℤ) (fun a b : Fin D → ℤ => toLex a ≤ toLex b) := ⟨fun a b c h1 h2 => le_trans h1 h2⟩
  exact List.pairwise_insertionSort _ _

theorem half {l : List (Fin D → ℤ)} (hn : l.Nodup) (hneg : ∀ t, t ∈ l ↔ -t ∈ l) (h0 : 0 ∉ l) (t : Fin D → ℤ) :
    t ∈ (lexDesc l).take ((lexDesc l).length / 2) ↔ t ∈ l ∧ 0 < toLex t := by
  classical
  set S := lexDesc l with hS
  have hp : S.Perm l := lexDesc_perm l
  let p : (Fin D → ℤ) → Bool := fun t => decide (0 < toLex t)
  have hs := split_sorted p (l := S) ((lexDesc_sorted l).imp fun {a b} hab hb => by
    simp only [p, decide_eq_true_eq] at hb ⊢
    exact lt_of_lt_of_le hb hab)
  have hSn : S.Nodup := hp.nodup_iff.mpr hn
  have hq : (S.filter fun a => !p a).Perm ((S.filter p).map fun a => -a) := by
    rw [List.perm_ext_iff_of_nodup (hSn.filter _) ((hSn.filter _).map neg_injective)]
    intro a
    simp only [List.mem_filter, List.mem_map, p, Bool.not_eq_true', decide_eq_false_iff_not, decide_eq_true_eq, hp.mem_iff]
    constructor
    · rintro ⟨h1, h2⟩
      refine ⟨-a, ⟨(hneg a).mp h1, ?_⟩, neg_neg a⟩
      have : toLex a ≠ 0 := fun e => h0 (by rwa [show a = 0 from e] at h1)
      have : toLex a < 0 := lt_of_le_of_ne (not_lt.mp h2) this
      exact neg_pos.mpr this
    · rintro ⟨b, ⟨h1, h2⟩, rfl⟩
      exact ⟨(hneg b).mp h1, not_lt.mpr (neg_neg_iff_pos.mpr h2).le⟩
  have hlen : S.length / 2 = (S.filter p).length := by
    have e1 := congrArg List.length hs
    rw [List.length_append, hq.length_eq, List.length_map] at e1
    omega
  have e2 : S.take (S.length / 2) = S.filter p := by
    rw [hlen]
    conv_lhs => rw [hs]
    rw [List.take_left']
    rw [← hs]
  rw [e2, List.mem_filter, hp.mem_iff]
  simp only [p, decide_eq_true_eq]

theorem mem_sublatPairs (P : Poly E D L) (p : L × L) : p ∈ sublatPairs P ↔ p.1 ∈ P.lats ∧ p.2 ∈ P.lats ∧ P.lats.idxOf p.1 ≤ P.lats.idxOf p.2 := by
  unfold sublatPairs
  obtain ⟨a, b⟩ := p
  rw [List.mem_filter, show P.lats.product P.lats = P.lats ×ˢ P.lats from rfl, List.mem_product]
  simp [and_assoc]

theorem sublatPairs_nodup {P : Poly E D L} (h : P.lats.Nodup) : (sublatPairs P).Nodup := (h.product h).filter _

theorem pairSites_fst {N : Num E D} {aux : Aux E D} {P : Poly E D L} {n : ℕ} {rtol : ℝ} {fuel : ℕ} {p : L × L} {g : L × L × List ((Fin D → ℤ) × ℝ)}
    (h : pairSites N aux P n rtol fuel p = some g) : (g.1, g.2.1) = p := by
  obtain ⟨R, -, rfl⟩ := Option.map_eq_some_iff.mp h
  rfl

/-- The result for one pair of sublattices. -/
theorem pairKinds_spec {N : Num E D} (hN : NumOk N) {P : Poly E D L} (hb : LinearIndependent ℝ P.prim) {aux : Aux E D} (h : AuxOk P.prim aux) {n : ℕ} {r : ℝ} (hr : IsNth P n r) {rtol : ℝ} (ht : 0 ≤ rtol)
    {fuel : ℕ} {p : L × L} (hp : p ∈ sublatPairs P) {eps : ℝ} (he : 0 < eps) (hsep : Separated P r eps) {g : L × L × List ((Fin D → ℤ) × ℝ)}
    (hg : pairSites N aux P n rtol fuel p = some g) :
    (∀ x, x ∈ g.2.2.map Prod.snd → x ∈ Dists P) ∧
    (∀ t, ‖tagPos P.prim (P.offset p.1) t - tagPos P.prim (P.offset p.2) 0‖ ≤ r → ‖tagPos P.prim (P.offset p.1) t - tagPos P.prim (P.offset p.2) 0‖ ∈ g.2.2.map Prod.snd) ∧
    (pairKinds eps r g).Nodup ∧ ∀ k, k ∈ pairKinds eps r g ↔ (k.famA, k.famB) = p ∧
      ‖tagPos P.prim (P.offset k.famA) k.delta - tagPos P.prim (P.offset k.famB) 0‖ = r ∧ (k.famA = k.famB → 0 ≤ toLex k.delta) := by
  obtain ⟨h1, h2, -⟩ := (mem_sublatPairs P p).mp hp
  obtain ⟨R, hR, rfl⟩ := Option.map_eq_some_iff.mp hg
  obtain ⟨hnd, hall⟩ := pair_all hN h hr ht h1 h2 hR
  set f : (Fin D → ℤ) → ℝ := fun t => ‖tagPos P.prim (P.offset p.1) t - tagPos P.prim (P.offset p.2) 0‖ with hf
  have hd : ∀ t, f t ∈ Dists P := fun t => ⟨p.1, h1, p.2, h2, t, 0, rfl⟩
  have e1 : (R.map fun tag => (tag, f tag)).map Prod.snd = R.map f := by rw [List.map_map]; rfl
  have hm : ∀ x, x ∈ R.map f → x ∈ Dists P := fun x hx => by
    obtain ⟨t, -, rfl⟩ := List.mem_map.mp hx
    exact hd t
  refine ⟨fun x hx => hm x (by rw [← e1]; exact hx), fun t htr => ?_, ?_⟩
  · show f t ∈ (R.map fun tag => (tag, f tag)).map Prod.snd
    rw [e1]
    exact List.mem_map.mpr ⟨t, hall t htr, rfl⟩
  -- the selected tags
  have e2 : ((R.map fun tag => (tag, f tag)).filter fun t => |t.2 - r| < eps).map Prod.fst = R.filter fun t => |f t - r| < eps := by
    rw [List.filter_map, List.map_map]
    exact List.map_id _
  set T := R.filter fun t => |f t - r| < eps with hT
  have hTn : T.Nodup := hnd.filter _
  have hTm : ∀ t, t ∈ T ↔ f t = r := fun t => by
    rw [hT, List.mem_filter]
    simp only [decide_eq_true_eq]
    constructor
    · rintro ⟨-, hab⟩
      rcases lt_trichotomy (f t) r with hlt | heq | hgt
      · have := hsep (f t) (hd t) r hr.1 hlt.le hlt
        rw [abs_lt] at hab
        linarith
      · exact heq
      · have := hsep r hr.1 (f t) (hd t) le_rfl hgt
        rw [abs_lt] at hab
        linarith
    · intro e
      exact ⟨hall t (le_of_eq e), by rw [e, sub_self, abs_zero]; exact he⟩
  have hperm := lexDesc_perm T
  set U : List (Fin D → ℤ) := if p.1 = p.2 ∧ 1 < (lexDesc T).length then (lexDesc T).take ((lexDesc T).length / 2) else lexDesc T with hU
  have hk : pairKinds eps r (p.1, p.2, R.map fun tag => (tag, f tag)) = U.map fun tag => ⟨tag, p.1, p.2⟩ := by
    unfold pairKinds
    simp only [e2]
    rfl
  have hUn : U.Nodup := by
    have : (lexDesc T).Nodup := hperm.nodup_iff.mpr hTn
    rw [hU]
    split
    · exact this.sublist (List.take_sublist _ _)
    · exact this
  have hUm : ∀ t, t ∈ U ↔ f t = r ∧ (p.1 = p.2 → 0 ≤ toLex t) := by
    intro t
    have esame : p.1 = p.2 → ∀ s, f s = ‖latPt P.prim s‖ := fun e s => by
      show ‖tagPos P.prim (P.offset p.1) s - tagPos P.prim (P.offset p.2) 0‖ = _
      rw [e]
      unfold tagPos
      rw [latPt_zero, zero_add, add_sub_cancel_right]
    by_cases hr0 : r = 0
    · -- the sites at the same position
      have hz : p.1 = p.2 → ∀ s, f s = r ↔ s = 0 := fun e s => by
        rw [esame e, hr0, norm_eq_zero]
        constructor
        · intro hs
          by_contra hc
          exact latPt_ne hb hc hs
        · rintro rfl; exact latPt_zero _
      have hlen : p.1 = p.2 → ¬ 1 < (lexDesc T).length := fun e => by
        have : T.Perm [0] := by
          rw [List.perm_ext_iff_of_nodup hTn (by simp)]
          intro s; rw [hTm, hz e]; simp
        rw [hperm.length_eq, this.length_eq]; simp
      rw [hU, if_neg (fun hc => hlen hc.1 hc.2), hperm.mem_iff, hTm]
      constructor
      · intro hft
        refine ⟨hft, fun e => ?_⟩
        rw [(hz e t).mp hft]
        exact le_rfl
      · exact fun hft => hft.1
    · by_cases e : p.1 = p.2
      · have h0 : (0 : Fin D → ℤ) ∉ T := fun hc => by
          have := (hTm 0).mp hc
          rw [esame e, latPt_zero, norm_zero] at this
          exact hr0 this.symm
        have hneg : ∀ s, s ∈ T ↔ -s ∈ T := fun s => by
          rw [hTm, hTm, esame e, esame e, latPt_neg, norm_neg]
        have hlt : ∀ s, s ∈ T → (0 ≤ toLex s ↔ 0 < toLex s) := fun s hs =>
          ⟨fun hle => lt_of_le_of_ne hle fun hc => h0 (by rwa [show s = 0 from hc.symm] at hs), le_of_lt⟩
        by_cases hlen : 1 < (lexDesc T).length
        · rw [hU, if_pos ⟨e, hlen⟩, half hTn hneg h0, hTm]
          constructor
          · exact fun hh => ⟨hh.1, fun _ => hh.2.le⟩
          · exact fun hh => ⟨hh.1, (hlt t ((hTm t).mpr hh.1)).mp (hh.2 e)⟩
        · -- then there are none
          have hnil : T = [] := by
            rw [hperm.length_eq] at hlen
            match T, hlen, hneg, h0 with
            | [], _, _, _ => rfl
            | [s], _, hneg, h0 =>
              exfalso
              have : -s = s := by simpa using (hneg s).mp (by simp)
              have hs : s = 0 := self_eq_neg.mp this.symm
              exact h0 (by simp [hs])
            | _ :: _ :: _, hl, _, _ => simp at hl
          have hU0 : U = [] := by
            rw [hU, if_neg (fun hc => hlen hc.2), hnil]
            rfl
          rw [hU0]
          constructor
          · intro hc; cases hc
          · rintro ⟨hc, -⟩
            have := (hTm t).mpr hc
            rw [hnil] at this
            cases this
      · rw [hU, if_neg (fun hc => e hc.1), hperm.mem_iff, hTm]
        exact ⟨fun hh => ⟨hh, fun hc => absurd hc e⟩, fun hh => hh.1⟩
  rw [show pairKinds eps r (p.1, p.2, R.map fun tag => (tag, ‖tagPos P.prim (P.offset p.1) tag - tagPos P.prim (P.offset p.2) 0‖)) = _ from hk]
  refine ⟨hUn.map fun a b hab => (Kind.mk.inj hab).1, fun k => ?_⟩
  rw [List.mem_map]
  constructor
  · rintro ⟨t, htU, rfl⟩
    exact ⟨rfl, (hUm t).mp htU⟩
  · rintro ⟨e, hkr, hlex⟩
    obtain ⟨e1, e2⟩ := Prod.mk.inj e
    refine ⟨k.delta, (hUm _).mpr ⟨?_, ?_⟩, ?_⟩
    · rw [← hkr, e1, e2]
    · rw [← e1, ← e2]; exact hlex
    · cases k; simp_all

/-! ### Theorems -/

/-- **C104**: if the distances between sites up to the n-th one differ by more than the tolerance, `neighbors(n)` does not raise an exception and returns, each once,
exactly the hopping kinds between sites at the n-th distance, from a sublattice to an earlier one or the same, and for the same sublattice only the ones with a
lexicographically non-negative difference of tags. -/
theorem C104_neighbors {N : Num E D} (hN : NumOk N) {P : Poly E D L} (hb : LinearIndependent ℝ P.prim) (hl : P.lats.Nodup) {aux : Aux E D} (h : AuxOk P.prim aux)
    {n : ℕ} {r : ℝ} (hr : IsNth P n r) {eps : ℝ} (he : 0 < eps) {μ : ℝ} (hμ : IsShortest P.prim μ) (hsep : Separated P r (eps * μ)) {fuel : ℕ}
    {res : Option (List (Kind D L))} (hres : neighbors N aux P n eps fuel = some res) :
    ∃ out, res = some out ∧ out.Nodup ∧ ∀ k, k ∈ out ↔ k.famA ∈ P.lats ∧ k.famB ∈ P.lats ∧ P.lats.idxOf k.famA ≤ P.lats.idxOf k.famB ∧
      ‖tagPos P.prim (P.offset k.famA) k.delta - tagPos P.prim (P.offset k.famB) 0‖ = r ∧ (k.famA = k.famB → 0 ≤ toLex k.delta) := by
  unfold neighbors at hres
  obtain ⟨lat, -, hres⟩ := Option.bind_eq_some_iff.mp hres
  obtain ⟨short, hshort, hres⟩ := Option.bind_eq_some_iff.mp hres
  obtain ⟨sites, hsites, rfl⟩ := Option.map_eq_some_iff.mp hres
  obtain ⟨-, hsm⟩ := shortest_spec hN h hb hshort hμ
  have hμ0 : 0 < μ := by
    obtain ⟨z, hz, rfl⟩ := hμ.1
    exact norm_pos_iff.mpr (latPt_ne hb hz)
  have heps : 0 < eps * μ := mul_pos he hμ0
  simp only [hsm]
  set d := (sites.flatMap fun g => g.2.2.map Prod.snd).insertionSort (· ≤ ·) with hd
  have hdm : ∀ x, x ∈ d ↔ ∃ g ∈ sites, x ∈ g.2.2.map Prod.snd := fun x => by
    rw [hd, (List.perm_insertionSort _ _).mem_iff, List.mem_flatMap]
  have hds : d.Pairwise (· ≤ ·) := List.pairwise_insertionSort _ _
  have hg : ∀ g ∈ sites, ∃ p ∈ sublatPairs P, pairSites N aux P n eps fuel p = some g := fun g hg => (mapAll_mem hsites g).mp hg
  have hdD : ∀ x ∈ d, x ∈ Dists P := fun x hx => by
    obtain ⟨g, hgs, hxg⟩ := (hdm x).mp hx
    obtain ⟨p, hp, hpg⟩ := hg g hgs
    exact (pairKinds_spec hN hb h hr he.le hp heps hsep hpg).1 x hxg
  -- all the distances up to r are in the list
  have hsurj : ∀ p ∈ sublatPairs P, ∃ g ∈ sites, pairSites N aux P n eps fuel p = some g := by
    intro p hp
    obtain ⟨i, hi, rfl⟩ := List.getElem_of_mem hp
    have hf := mapAll_some hsites
    have hlen := hf.length_eq
    exact ⟨sites[i]'(by omega), List.getElem_mem _, List.forall₂_iff_get.mp hf |>.2 i hi (by omega)⟩
  have hDd : ∀ x ∈ Dists P, x ≤ r → x ∈ d := by
    rintro x ⟨a, ha, b, hb', s, t, rfl⟩ hx
    have key : ∀ a ∈ P.lats, ∀ b ∈ P.lats, P.lats.idxOf a ≤ P.lats.idxOf b → ∀ s t, ‖tagPos P.prim (P.offset a) s - tagPos P.prim (P.offset b) t‖ ≤ r →
        ‖tagPos P.prim (P.offset a) s - tagPos P.prim (P.offset b) t‖ ∈ d := by
      intro a ha b hb' hab s t hx
      obtain ⟨g, hgs, hpg⟩ := hsurj (a, b) ((mem_sublatPairs P _).mpr ⟨ha, hb', hab⟩)
      have e : tagPos P.prim (P.offset a) s - tagPos P.prim (P.offset b) t = tagPos P.prim (P.offset a) (s - t) - tagPos P.prim (P.offset b) 0 := by
        unfold tagPos
        rw [latPt_sub', latPt_zero]
        abel
      rw [e] at hx ⊢
      exact (hdm _).mpr ⟨g, hgs, (pairKinds_spec hN hb h hr he.le ((mem_sublatPairs P (a, b)).mpr ⟨ha, hb', hab⟩) heps hsep hpg).2.1 _ hx⟩
    rcases le_total (P.lats.idxOf a) (P.lats.idxOf b) with hab | hab
    · exact key a ha b hb' hab s t hx
    · rw [norm_sub_rev] at hx ⊢
      exact key b hb' a ha hab t s hx
  have hnd : nDist (eps * μ) n d = some r := by
    refine nDist_spec heps.le hds (hDd r hr.1 le_rfl) (fun x hx y hy => hsep x (hdD x hx) y (hdD y hy)) ?_
    have e : ((d.toFinset.filter (· < r) : Finset ℝ) : Set ℝ) = {x | x ∈ Dists P ∧ x < r} := by
      ext x
      simp only [Finset.coe_filter, List.mem_toFinset, Set.mem_ofPred_eq]
      exact ⟨fun hx => ⟨hdD x hx.1, hx.2⟩, fun hx => ⟨hDd x hx.1 hx.2.le, hx.2⟩⟩
    have := hr.2
    rw [← e, Set.encard_coe_eq_coe_finsetCard] at this
    exact_mod_cast this
  rw [hnd]
  refine ⟨_, rfl, ?_, fun k => ?_⟩
  · rw [List.nodup_flatMap]
    constructor
    · intro g hgs
      obtain ⟨p, hp, hpg⟩ := hg g hgs
      exact (pairKinds_spec hN hb h hr he.le hp heps hsep hpg).2.2.1
    · -- different pairs
      have hf := mapAll_some hsites
      have hlen := hf.length_eq
      rw [List.pairwise_iff_getElem]
      intro i j hi hj hij k hki hkj
      have hpi := List.forall₂_iff_get.mp hf |>.2 i (by omega) hi
      have hpj := List.forall₂_iff_get.mp hf |>.2 j (by omega) hj
      simp only [List.get_eq_getElem] at hpi hpj
      have e1 := ((pairKinds_spec hN hb h hr he.le (List.getElem_mem _) heps hsep hpi).2.2.2 k).mp hki
      have e2 := ((pairKinds_spec hN hb h hr he.le (List.getElem_mem _) heps hsep hpj).2.2.2 k).mp hkj
      have := (List.Nodup.getElem_inj_iff (sublatPairs_nodup hl)).mp (e1.1.symm.trans e2.1)
      omega
  · rw [List.mem_flatMap]
    constructor
    · rintro ⟨g, hgs, hk⟩
      obtain ⟨p, hp, hpg⟩ := hg g hgs
      obtain ⟨e, h1, h2⟩ := ((pairKinds_spec hN hb h hr he.le hp heps hsep hpg).2.2.2 k).mp hk
      have := (mem_sublatPairs P p).mp hp
      rw [← e] at this
      exact ⟨this.1, this.2.1, this.2.2, h1, h2⟩
    · rintro ⟨h1, h2, h3, h4, h5⟩
      have hp := (mem_sublatPairs P (k.famA, k.famB)).mpr ⟨h1, h2, h3⟩
      obtain ⟨g, hgs, hpg⟩ := hsurj _ hp
      exact ⟨g, hgs, ((pairKinds_spec hN hb h hr he.le hp heps hsep hpg).2.2.2 k).mpr ⟨rfl, h4, h5⟩⟩

/-- **C104**: every pair of sites at the n-th distance is matched, in one of the two directions, by exactly one of the returned kinds; all the hoppings that match
one of them have that length. -/
theorem C104_once {N : Num E D} (hN : NumOk N) {P : Poly E D L} (hb : LinearIndependent ℝ P.prim) (hl : P.lats.Nodup) {aux : Aux E D} (h : AuxOk P.prim aux)
    {n : ℕ} {r : ℝ} (hr : IsNth P n r) {eps : ℝ} (he : 0 < eps) {μ : ℝ} (hμ : IsShortest P.prim μ) (hsep : Separated P r (eps * μ)) {fuel : ℕ}
    {out : List (Kind D L)} (hres : neighbors N aux P n eps fuel = some (some out)) :
    (∀ x y : L × (Fin D → ℤ), x.1 ∈ P.lats → y.1 ∈ P.lats → ‖tagPos P.prim (P.offset x.1) x.2 - tagPos P.prim (P.offset y.1) y.2‖ = r →
      ∃! k, k ∈ out ∧ (Matches k x y ∨ Matches k y x)) ∧
    ∀ k ∈ out, ∀ x y, Matches k x y → ‖tagPos P.prim (P.offset x.1) x.2 - tagPos P.prim (P.offset y.1) y.2‖ = r := by
  obtain ⟨out', e, -, hm⟩ := C104_neighbors hN hb hl h hr he hμ hsep hres
  obtain rfl := Option.some.inj e
  have ediff : ∀ (a b : L) (s t : Fin D → ℤ), tagPos P.prim (P.offset a) s - tagPos P.prim (P.offset b) t = tagPos P.prim (P.offset a) (s - t) - tagPos P.prim (P.offset b) 0 := by
    intro a b s t
    unfold tagPos
    rw [latPt_sub', latPt_zero]
    abel
  constructor
  · -- one of the two directions
    have key : ∀ x y : L × (Fin D → ℤ), x.1 ∈ P.lats → y.1 ∈ P.lats → ‖tagPos P.prim (P.offset x.1) x.2 - tagPos P.prim (P.offset y.1) y.2‖ = r →
        P.lats.idxOf x.1 ≤ P.lats.idxOf y.1 → (x.1 = y.1 → 0 ≤ toLex (x.2 - y.2)) → ∃! k, k ∈ out ∧ (Matches k x y ∨ Matches k y x) := by
      intro x y hx hy hxy hi hlex
      refine ⟨⟨x.2 - y.2, x.1, y.1⟩, ⟨(hm _).mpr ⟨hx, hy, hi, by rw [← ediff]; exact hxy, hlex⟩, .inl ⟨rfl, rfl, rfl⟩⟩, ?_⟩
      rintro k ⟨hk, hmk⟩
      obtain ⟨-, -, k3, -, k5⟩ := (hm k).mp hk
      rcases hmk with ⟨m1, m2, m3⟩ | ⟨m1, m2, m3⟩
      · cases k; simp_all
      · rw [← m1, ← m2] at k3
        have hfam : x.1 = y.1 := (List.idxOf_inj hx).mp (le_antisymm hi k3)
        have l1 := hlex hfam
        have l2 := k5 (by rw [← m1, ← m2, hfam])
        rw [← m3] at l2
        have l3 : toLex (x.2 - y.2) ≤ 0 := by
          have : toLex (x.2 - y.2) = -toLex (y.2 - x.2) := by
            rw [← neg_sub y.2 x.2]; rfl
          rw [this]
          exact neg_nonpos.mpr l2
        have l4 : x.2 - y.2 = 0 := toLex_inj.mp (le_antisymm l3 l1)
        have l5 : y.2 - x.2 = 0 := by rw [← neg_sub, l4, neg_zero]
        cases k
        simp only [Kind.mk.injEq]
        simp only at m1 m2 m3
        exact ⟨by rw [← m3, l4, l5], by rw [← m1, hfam], by rw [← m2, hfam]⟩
    intro x y hx hy hxy
    have hyx : ‖tagPos P.prim (P.offset y.1) y.2 - tagPos P.prim (P.offset x.1) x.2‖ = r := by rw [norm_sub_rev]; exact hxy
    have hswap : ∀ k, (k ∈ out ∧ (Matches k x y ∨ Matches k y x)) ↔ (k ∈ out ∧ (Matches k y x ∨ Matches k x y)) := fun k => and_congr_right fun _ => or_comm
    by_cases hfam : x.1 = y.1
    · rcases le_total 0 (toLex (x.2 - y.2)) with hle | hle
      · exact key x y hx hy hxy (by rw [hfam]) fun _ => hle
      · simp only [hswap]
        refine key y x hy hx hyx (by rw [hfam]) fun _ => ?_
        have : toLex (y.2 - x.2) = -toLex (x.2 - y.2) := by
          rw [← neg_sub x.2 y.2]; rfl
        rw [this]
        exact neg_nonneg.mpr hle
    · rcases le_total (P.lats.idxOf x.1) (P.lats.idxOf y.1) with hle | hle
      · exact key x y hx hy hxy hle fun hc => absurd hc hfam
      · simp only [hswap]
        exact key y x hy hx hyx hle fun hc => absurd hc.symm hfam
  · rintro k hk x y ⟨m1, m2, m3⟩
    obtain ⟨-, -, -, k4, -⟩ := (hm k).mp hk
    rw [ediff, m1, m2, m3, k4]

end Kwant.Lat
