import Verif.Linalg.Cvp

/-!
C72: kwant/linalg/lll.py, `voronoi`.

Simplifications: exact real arithmetic; `la.lstsq` and `np.argsort` as in `Cvp.lean`; the loops inside of `cvp` get a number of steps (`fuel`).
-/

set_option linter.unusedSectionVars false

namespace Kwant.Voronoi
open Finset Kwant.LLL Kwant.Cvp

variable {E : Type*} [NormedAddCommGroup E] [InnerProductSpace ℝ E] {D : ℕ}

local notation "⟪" x ", " y "⟫" => inner ℝ x y

/-- `product(*(n * [[0, .5]]))` (lll.py l.262), in the order of itertools -/
noncomputable def product : (n : ℕ) → List (Fin n → ℝ)
  | 0 => [Fin.elim0]
  | n + 1 => ([0, 0.5] : List ℝ).flatMap fun a => (product n).map fun t => Fin.cons a t

/-- `displacements` (lll.py l.262) -/
noncomputable def displacements (n : ℕ) : List (Fin n → ℝ) := (product n).tail

/-- A list comprehension whose body can fail. -/
def mapAll {α β : Type*} (f : α → Option β) : List α → Option (List β)
  | [] => some []
  | a :: l => (f a).bind fun b => (mapAll f l).map fun r => b :: r

/-- One entry of `vertices`: `cvp(vec @ basis, basis)[0]`, and `np.round((vertices - displacements) * 2)` (lll.py l.265-269) -/
noncomputable def vertexOf (lsq : (Fin D → E) → E → Fin D → ℝ) (sort : (E → ℝ) → List (Fin D → ℤ) → List (Fin D → ℤ)) (basis : Fin D → E) (fuel : ℕ)
    (d : Fin D → ℝ) : Option (Fin D → ℤ) :=
  (cvp lsq sort (realPt basis d) basis 1 false 1e-9 fuel).bind fun R => R.head?.map fun c i => npRound (((c i : ℝ) - d i) * 2)

/-- `products = vertices @ bbt @ vertices.T` (lll.py l.275) -/
noncomputable def products (basis : Fin D → E) (u v : Fin D → ℤ) : ℝ := ∑ a, ∑ b, (u a : ℝ) * bbt basis a b * (v b : ℝ)

/-- `np.all(np.abs(projections) < 0.5 - rtol)` (lll.py l.280-282) -/
def farFromAll (basis : Fin D → E) (rtol : ℝ) (vs : List (Fin D → ℤ)) (keep : ℕ → Bool) (i : ℕ) : Prop :=
  ∀ k < vs.length, k ≠ i → keep k = true → |0.5 * products basis (vs.getD i 0) (vs.getD k 0) / products basis (vs.getD k 0) (vs.getD k 0)| < 0.5 - rtol

open Classical in
/-- One iteration of the loop over the vertices (lll.py l.277-283) -/
noncomputable def keepStep (basis : Fin D → E) (rtol : ℝ) (vs : List (Fin D → ℤ)) (keep : ℕ → Bool) (i : ℕ) : ℕ → Bool :=
  if farFromAll basis rtol vs keep i then keep else Function.update keep i false

/-- The mask `keep` after the loop (lll.py l.276-283) -/
noncomputable def keepMask (basis : Fin D → E) (rtol : ℝ) (vs : List (Fin D → ℤ)) : ℕ → Bool :=
  (List.range vs.length).foldl (keepStep basis rtol vs) fun _ => true

/-- `vertices[keep]` (lll.py l.284) -/
noncomputable def masked (vs : List (Fin D → ℤ)) (keep : ℕ → Bool) : List (Fin D → ℤ) := ((List.range vs.length).filter keep).map fun k => vs.getD k 0

/-- `voronoi(basis, reduced, rtol)` (lll.py l.233-287) -/
noncomputable def voronoi (lsq : (Fin D → E) → E → Fin D → ℝ) (sort : (E → ℝ) → List (Fin D → ℤ) → List (Fin D → ℤ)) (basis : Fin D → E) (reduced : Bool)
    (rtol : ℝ) (fuel : ℕ) : Option (List (Fin D → ℤ)) :=
  (mapAll (vertexOf lsq sort basis fuel) (displacements D)).map fun vs =>
    let vs := if reduced then masked vs (keepMask basis rtol vs) else vs
    vs ++ vs.map fun v => -v

/-! ### Specification -/

/-- The Voronoi cell of the origin. -/
def Cell (basis : Fin D → E) : Set E := {x | ∀ z : Fin D → ℤ, ‖x‖ ≤ ‖x - latPt basis z‖}

/-- The lattice vector `u` belongs to a face of codimension one of the Voronoi cell: some point has exactly the origin and `u` as closest lattice points. -/
def Relevant (basis : Fin D → E) (u : Fin D → ℤ) : Prop :=
  u ≠ 0 ∧ ∃ x : E, ‖x‖ = ‖x - latPt basis u‖ ∧ ∀ z, z ≠ 0 → z ≠ u → ‖x‖ < ‖x - latPt basis z‖

/-! ### Displacements -/

theorem product_ne (n : ℕ) : product n ≠ [] := by
  induction n with
  | zero => simp [product]
  | succ n ih =>
    intro h
    simp only [product, List.flatMap_cons, List.append_eq_nil_iff, List.map_eq_nil_iff] at h
    exact ih h.1

theorem product_head (n : ℕ) : (product n).head? = some 0 := by
  induction n with
  | zero =>
    simp only [product, List.head?_cons]
    congr 1; funext i; exact i.elim0
  | succ n ih =>
    simp only [product, List.flatMap_cons]
    rw [List.head?_append_of_ne_nil _ (by simpa using product_ne n), List.head?_map, ih, Option.map_some]
    congr 1
    funext i
    refine Fin.cases ?_ (fun j => ?_) i
    · rfl
    · rfl

theorem mem_product {n : ℕ} (d : Fin n → ℝ) : d ∈ product n ↔ ∀ i, d i = 0 ∨ d i = 0.5 := by
  induction n with
  | zero =>
    simp only [product, List.mem_singleton]
    exact ⟨fun _ i => i.elim0, fun _ => funext fun i => i.elim0⟩
  | succ n ih =>
    simp only [product, List.mem_flatMap, List.mem_map]
    constructor
    · rintro ⟨a, ha, t, ht, rfl⟩ i
      refine Fin.cases ?_ (fun j => ?_) i
      · simpa using ha
      · simpa using (ih t).mp ht j
    · intro h
      exact ⟨d 0, by simpa using h 0, Fin.tail d, (ih _).mpr fun i => h i.succ, Fin.cons_self_tail d⟩

theorem product_length (n : ℕ) : (product n).length = 2 ^ n := by
  induction n with
  | zero => simp [product]
  | succ n ih => simp [product, ih, pow_succ]; ring

theorem product_nodup (n : ℕ) : (product n).Nodup := by
  induction n with
  | zero => simp [product]
  | succ n ih =>
    simp only [product, List.flatMap_cons, List.flatMap_nil, List.append_nil]
    refine List.nodup_append.mpr ⟨?_, ?_, ?_⟩
    · exact ih.map fun a b h => (Fin.cons_injective2 h).2
    · exact ih.map fun a b h => (Fin.cons_injective2 h).2
    · rintro a ha b hb rfl
      obtain ⟨s, -, hs⟩ := List.mem_map.mp ha
      obtain ⟨t, -, ht⟩ := List.mem_map.mp hb
      have := (Fin.cons_injective2 (hs.trans ht.symm)).1
      norm_num at this

theorem product_cons (n : ℕ) : product n = 0 :: displacements n := by
  have h := product_head n
  unfold displacements
  cases hp : product n with
  | nil => exact absurd hp (product_ne n)
  | cons a l =>
    rw [hp] at h
    rw [List.head?_cons] at h
    rw [Option.some.inj h]; rfl

theorem mem_displacements {n : ℕ} (d : Fin n → ℝ) : d ∈ displacements n ↔ (∀ i, d i = 0 ∨ d i = 0.5) ∧ d ≠ 0 := by
  have h1 := mem_product d
  have h2 := product_nodup n
  rw [product_cons, List.mem_cons] at h1
  rw [product_cons, List.nodup_cons] at h2
  constructor
  · intro h
    exact ⟨h1.mp (Or.inr h), fun e => h2.1 (e ▸ h)⟩
  · rintro ⟨h, hne⟩
    exact (h1.mpr h).resolve_left hne

theorem displacements_nodup (n : ℕ) : (displacements n).Nodup := (product_nodup n).sublist (List.tail_sublist _)

theorem displacements_length (n : ℕ) : (displacements n).length = 2 ^ n - 1 := by
  unfold displacements
  rw [List.length_tail, product_length]

theorem mapAll_some {α β : Type*} {f : α → Option β} : ∀ {l : List α} {r : List β}, mapAll f l = some r → List.Forall₂ (fun a b => f a = some b) l r
  | [], r, h => by
    rw [← Option.some.inj h]; exact List.Forall₂.nil
  | a :: l, r, h => by
    unfold mapAll at h
    cases hf : f a with
    | none => rw [hf] at h; cases h
    | some b =>
      rw [hf, Option.bind_some] at h
      cases hm : mapAll f l with
      | none => rw [hm] at h; cases h
      | some t =>
        rw [hm, Option.map_some] at h
        rw [← Option.some.inj h]
        exact List.Forall₂.cons hf (mapAll_some hm)

/-! ### The list of vertices -/

theorem latPt_add (basis : Fin D → E) (u v : Fin D → ℤ) : latPt basis (u + v) = latPt basis u + latPt basis v := by
  unfold latPt
  rw [← Finset.sum_add_distrib]
  exact Finset.sum_congr rfl fun j _ => by rw [Pi.add_apply, Int.cast_add, add_smul]

theorem latPt_neg (basis : Fin D → E) (v : Fin D → ℤ) : latPt basis (-v) = -latPt basis v := by
  unfold latPt
  rw [← Finset.sum_neg_distrib]
  exact Finset.sum_congr rfl fun j _ => by rw [Pi.neg_apply, Int.cast_neg, neg_smul]

theorem latPt_sub' (basis : Fin D → E) (u v : Fin D → ℤ) : latPt basis (u - v) = latPt basis u - latPt basis v := by
  rw [sub_eq_add_neg, latPt_add, latPt_neg, sub_eq_add_neg]

theorem latPt_zero (basis : Fin D → E) : latPt basis 0 = 0 := by
  unfold latPt
  exact Finset.sum_eq_zero fun j _ => by rw [Pi.zero_apply, Int.cast_zero, zero_smul]

theorem latPt_inj {basis : Fin D → E} (hb : LinearIndependent ℝ basis) {u v : Fin D → ℤ} (h : latPt basis u = latPt basis v) : u = v := by
  have h0 : ∑ j, ((u j : ℝ) - v j) • basis j = 0 := by
    simp only [sub_smul, Finset.sum_sub_distrib]
    exact sub_eq_zero.mpr h
  funext j
  have := Fintype.linearIndependent_iff.mp hb _ h0 j
  exact_mod_cast sub_eq_zero.mp this

theorem latPt_ne {basis : Fin D → E} (hb : LinearIndependent ℝ basis) {u : Fin D → ℤ} (h : u ≠ 0) : latPt basis u ≠ 0 :=
  fun e => h (latPt_inj hb (e.trans (latPt_zero basis).symm))

/-- Two coordinate vectors differ by twice a lattice vector. -/
def SameClass (u v : Fin D → ℤ) : Prop := ∃ w : Fin D → ℤ, u = v + w + w

theorem vertex_spec {lsq : (Fin D → E) → E → Fin D → ℝ} {sort : (E → ℝ) → List (Fin D → ℤ) → List (Fin D → ℤ)} {basis : Fin D → E} (hl : LsqOk lsq)
    (hs : SortOk basis sort) (hb : LinearIndependent ℝ basis) {fuel : ℕ} {d : Fin D → ℝ} (hd : d ∈ displacements D) {v : Fin D → ℤ}
    (h : vertexOf lsq sort basis fuel d = some v) :
    (∀ i, (v i) % 2 = if d i = 0 then 0 else 1) ∧ (∀ u, SameClass u v → ‖latPt basis v‖ ≤ ‖latPt basis u‖) := by
  unfold vertexOf at h
  cases hc : cvp lsq sort (realPt basis d) basis 1 false 1e-9 fuel with
  | none => rw [hc] at h; cases h
  | some R =>
    rw [hc, Option.bind_some] at h
    obtain ⟨hlen, -, -, hmin⟩ := C71_closest hl hs hb le_rfl hc
    obtain ⟨c, rfl⟩ := List.length_eq_one_iff.mp hlen
    rw [List.head?_cons, Option.map_some] at h
    have hv := (Option.some.inj h).symm
    have hmin' : ∀ z, ‖latPt basis c - realPt basis d‖ ≤ ‖latPt basis z - realPt basis d‖ := by
      intro z
      by_cases hz : z = c
      · rw [hz]
      · exact hmin z (by simpa using hz) c (by simp)
    obtain ⟨hd1, -⟩ := (mem_displacements d).mp hd
    have hvi : ∀ i, v i = 2 * c i - (if d i = 0 then 0 else 1) := by
      intro i
      rw [hv]
      show npRound (((c i : ℝ) - d i) * 2) = _
      have : ((c i : ℝ) - d i) * 2 = ((2 * c i - (if d i = 0 then 0 else 1) : ℤ) : ℝ) := by
        rcases hd1 i with e | e
        · rw [if_pos e, e]; push_cast; ring
        · rw [if_neg (by rw [e]; norm_num), e]; push_cast; ring
      rw [this, npRound_int]
    have hreal : ∀ z : Fin D → ℤ, latPt basis (v + z + z) = (2 : ℝ) • (latPt basis (c + z) - realPt basis d) := by
      intro z
      rw [latPt_sub]
      unfold latPt realPt
      rw [Finset.smul_sum]
      refine Finset.sum_congr rfl fun i _ => ?_
      rw [smul_smul]
      congr 1
      show ((v i + z i + z i : ℤ) : ℝ) = 2 * (((c i + z i : ℤ) : ℝ) - d i)
      rw [hvi i]
      rcases hd1 i with e | e
      · rw [if_pos e, e]; push_cast; ring
      · rw [if_neg (by rw [e]; norm_num), e]; push_cast; ring
    refine ⟨fun i => ?_, ?_⟩
    · rw [hvi i]; split <;> omega
    · rintro u ⟨w, rfl⟩
      have h0 := hreal 0
      rw [add_zero, add_zero, add_zero] at h0
      rw [h0, hreal w, norm_smul, norm_smul]
      exact mul_le_mul_of_nonneg_left (hmin' _) (norm_nonneg _)

/-- What is known about the list of vertices: one shortest representative of every nonzero class modulo twice the lattice. -/
structure Verts (basis : Fin D → E) (vs : List (Fin D → ℤ)) : Prop where
  len : vs.length = 2 ^ D - 1
  ne : ∀ v ∈ vs, ¬ SameClass v 0
  short : ∀ v ∈ vs, ∀ u, SameClass u v → ‖latPt basis v‖ ≤ ‖latPt basis u‖
  all : ∀ u, ¬ SameClass u 0 → ∃ v ∈ vs, SameClass u v
  uniq : vs.Pairwise fun u v => ¬ SameClass u v

theorem sameClass_iff {u v : Fin D → ℤ} : SameClass u v ↔ ∀ i, u i % 2 = v i % 2 := by
  constructor
  · rintro ⟨w, rfl⟩ i
    rw [Pi.add_apply, Pi.add_apply]; omega
  · intro h
    refine ⟨fun i => (u i - v i) / 2, funext fun i => ?_⟩
    rw [Pi.add_apply, Pi.add_apply]
    have := h i
    omega

theorem sameClass_symm {u v : Fin D → ℤ} (h : SameClass u v) : SameClass v u := sameClass_iff.mpr fun i => (sameClass_iff.mp h i).symm

theorem verts {lsq : (Fin D → E) → E → Fin D → ℝ} {sort : (E → ℝ) → List (Fin D → ℤ) → List (Fin D → ℤ)} {basis : Fin D → E} (hl : LsqOk lsq)
    (hs : SortOk basis sort) (hb : LinearIndependent ℝ basis) {fuel : ℕ} {vs : List (Fin D → ℤ)}
    (h : mapAll (vertexOf lsq sort basis fuel) (displacements D) = some vs) : Verts basis vs := by
  have hf := mapAll_some h
  have hlen := hf.length_eq
  have hget : ∀ k (hk : k < vs.length), vertexOf lsq sort basis fuel ((displacements D)[k]'(by omega)) = some vs[k] := fun k hk => by
    exact (List.forall₂_iff_get.mp hf).2 k (by omega) hk
  have spec : ∀ k (hk : k < vs.length), (∀ i, (vs[k] i) % 2 = if ((displacements D)[k]'(by omega)) i = 0 then 0 else 1) ∧
      (∀ u, SameClass u vs[k] → ‖latPt basis vs[k]‖ ≤ ‖latPt basis u‖) := fun k hk =>
    vertex_spec hl hs hb (List.getElem_mem _) (hget k hk)
  refine ⟨by rw [← hlen, displacements_length], ?_, ?_, ?_, ?_⟩
  · intro v hv hc
    obtain ⟨k, hk, rfl⟩ := List.getElem_of_mem hv
    have hd := (mem_displacements ((displacements D)[k]'(by omega))).mp (List.getElem_mem _)
    apply hd.2
    funext i
    have h1 := (spec k hk).1 i
    have h2 := sameClass_iff.mp hc i
    rw [Pi.zero_apply] at h2 ⊢
    by_contra h3
    rw [if_neg h3] at h1
    omega
  · intro v hv
    obtain ⟨k, hk, rfl⟩ := List.getElem_of_mem hv
    exact (spec k hk).2
  · intro u hu
    let d : Fin D → ℝ := fun i => if u i % 2 = 0 then 0 else 0.5
    have hd : d ∈ displacements D := by
      refine (mem_displacements d).mpr ⟨fun i => ?_, fun e => hu (sameClass_iff.mpr fun i => ?_)⟩
      · show (if u i % 2 = 0 then (0 : ℝ) else 0.5) = 0 ∨ _
        split
        · exact Or.inl rfl
        · next h => right; show (if u i % 2 = 0 then (0 : ℝ) else 0.5) = 0.5; rw [if_neg h]
      · have := congrFun e i
        by_contra h3
        have h4 : u i % 2 ≠ 0 := by simpa using h3
        have h5 : (if u i % 2 = 0 then (0 : ℝ) else 0.5) = 0 := this
        rw [if_neg h4] at h5
        norm_num at h5
    obtain ⟨k, hk, hkd⟩ := List.getElem_of_mem hd
    refine ⟨vs[k]'(by omega), List.getElem_mem _, sameClass_iff.mpr fun i => ?_⟩
    rw [(spec k (by omega)).1 i, hkd]
    show _ = if (if u i % 2 = 0 then (0 : ℝ) else 0.5) = 0 then (0 : ℤ) else 1
    by_cases h4 : u i % 2 = 0
    · rw [if_pos h4, if_pos rfl, h4]
    · rw [if_neg h4, if_neg (by norm_num)]; omega
  · rw [List.pairwise_iff_getElem]
    intro a b ha hb' hab hc
    have hnd := displacements_nodup D
    have : (displacements D)[a]'(by omega) = (displacements D)[b]'(by omega) := by
      funext i
      have h1 := (spec a ha).1 i
      have h2 := (spec b hb').1 i
      rw [sameClass_iff.mp hc i, h2] at h1
      have hda := ((mem_displacements ((displacements D)[a]'(by omega))).mp (List.getElem_mem _)).1 i
      have hdb := ((mem_displacements ((displacements D)[b]'(by omega))).mp (List.getElem_mem _)).1 i
      rcases hda with e | e <;> rcases hdb with f | f <;> rw [e, f] at h1 ⊢ <;> norm_num at h1
    exact absurd ((List.Nodup.getElem_inj_iff hnd).mp this) (by omega)

/-! ### Geometry -/

theorem norm_le_iff (x u : E) : ‖x‖ ≤ ‖x - u‖ ↔ 2 * ⟪x, u⟫ ≤ ‖u‖ ^ 2 := by
  rw [← pow_le_pow_iff_left₀ (norm_nonneg _) (norm_nonneg _) two_ne_zero, norm_sub_sq_real]
  constructor <;> intro h <;> linarith

theorem norm_lt_iff (x u : E) : ‖x‖ < ‖x - u‖ ↔ 2 * ⟪x, u⟫ < ‖u‖ ^ 2 := by
  rw [← pow_lt_pow_iff_left₀ (norm_nonneg _) (norm_nonneg _) two_ne_zero, norm_sub_sq_real]
  constructor <;> intro h <;> linarith

theorem norm_eq_iff (x u : E) : ‖x‖ = ‖x - u‖ ↔ 2 * ⟪x, u⟫ = ‖u‖ ^ 2 := by
  rw [← pow_left_inj₀ (norm_nonneg _) (norm_nonneg _) two_ne_zero, norm_sub_sq_real]
  constructor <;> intro h <;> linarith

/-- Lattice vectors have no infinite descent in length. -/
theorem descent {basis : Fin D → E} (hb : LinearIndependent ℝ basis) (P : (Fin D → ℤ) → Prop)
    (h : ∀ u, (∀ w, ‖latPt basis w‖ < ‖latPt basis u‖ → P w) → P u) (u : Fin D → ℤ) : P u := by
  have wf : WellFounded fun a b : Fin D → ℤ => ‖latPt basis a‖ < ‖latPt basis b‖ := by
    rw [WellFounded.wellFounded_iff_has_min]
    rintro S ⟨s, hs⟩
    have fin : (S ∩ {z | ‖latPt basis z‖ ^ 2 ≤ ‖latPt basis s‖ ^ 2}).Finite := by
      refine Set.Finite.of_finite_image (f := latPt basis) ?_ fun a _ b _ hab => latPt_inj hb hab
      refine (finite_short hb (‖latPt basis s‖ ^ 2)).subset ?_
      rintro _ ⟨z, ⟨-, hz⟩, rfl⟩
      exact ⟨⟨z, Finset.sum_congr rfl fun j _ => by rw [Int.cast_smul_eq_zsmul]⟩, hz⟩
    obtain ⟨m, ⟨hmS, hm⟩, hmin⟩ := Set.exists_min_image _ (fun z => ‖latPt basis z‖) fin ⟨s, hs, le_refl (‖latPt basis s‖ ^ 2)⟩
    refine ⟨m, hmS, fun x hx hlt => ?_⟩
    have := hmin x ⟨hx, ?_⟩
    · linarith
    · have hm' : ‖latPt basis m‖ ^ 2 ≤ ‖latPt basis s‖ ^ 2 := hm
      exact le_trans (pow_le_pow_left₀ (norm_nonneg _) hlt.le 2) hm'
  exact wf.induction u h

/-- A lattice vector is the sum of two shorter ones, none longer than needed. -/
def Splits (basis : Fin D → E) (u : Fin D → ℤ) : Prop :=
  ∃ w w', u = w + w' ∧ w ≠ 0 ∧ w' ≠ 0 ∧ ‖latPt basis w‖ ^ 2 + ‖latPt basis w'‖ ^ 2 ≤ ‖latPt basis u‖ ^ 2

theorem Splits.lt {basis : Fin D → E} (hb : LinearIndependent ℝ basis) {u : Fin D → ℤ} (h : Splits basis u) :
    ∃ w w', u = w + w' ∧ w ≠ 0 ∧ w' ≠ 0 ∧ ‖latPt basis w‖ < ‖latPt basis u‖ ∧ ‖latPt basis w'‖ < ‖latPt basis u‖ ∧
      ‖latPt basis w‖ ^ 2 + ‖latPt basis w'‖ ^ 2 ≤ ‖latPt basis u‖ ^ 2 := by
  obtain ⟨w, w', e, h1, h2, h3⟩ := h
  have p1 : 0 < ‖latPt basis w‖ ^ 2 := pow_pos (norm_pos_iff.mpr (latPt_ne hb h1)) 2
  have p2 : 0 < ‖latPt basis w'‖ ^ 2 := pow_pos (norm_pos_iff.mpr (latPt_ne hb h2)) 2
  refine ⟨w, w', e, h1, h2, ?_, ?_, h3⟩
  · exact lt_of_pow_lt_pow_left₀ 2 (norm_nonneg _) (by linarith)
  · exact lt_of_pow_lt_pow_left₀ 2 (norm_nonneg _) (by linarith)

/-- All nonzero lattice vectors except the listed ones are sums of two shorter ones. -/
theorem splits_or {basis : Fin D → E} (hb : LinearIndependent ℝ basis) {vs : List (Fin D → ℤ)} (hv : Verts basis vs) {u : Fin D → ℤ} (hu : u ≠ 0) :
    Splits basis u ∨ u ∈ vs ∨ -u ∈ vs := by
  by_cases hc : SameClass u 0
  · obtain ⟨w, e⟩ := hc
    rw [zero_add] at e
    have hw : w ≠ 0 := fun h => hu (by rw [e, h, add_zero])
    refine Or.inl ⟨w, w, e, hw, hw, ?_⟩
    have : latPt basis u = (2 : ℝ) • latPt basis w := by rw [e, latPt_add, two_smul]
    rw [this, norm_smul, mul_pow]
    norm_num
    nlinarith [sq_nonneg ‖latPt basis w‖]
  · obtain ⟨v, hvm, w, e⟩ := hv.all u hc
    by_cases h1 : w = 0
    · right; left; rw [e, h1, add_zero, add_zero]; exact hvm
    · by_cases h2 : v + w = 0
      · right; right
        have : -u = v := by
          have : w = -v := (neg_eq_of_add_eq_zero_right h2).symm
          rw [e, this]; abel
        rw [this]; exact hvm
      · refine Or.inl ⟨w, v + w, by rw [e]; abel, h1, h2, ?_⟩
        have hle := hv.short v hvm u ⟨w, e⟩
        have e1 : latPt basis v = latPt basis (v + w) - latPt basis w := by rw [latPt_add]; abel
        have e2 : latPt basis u = latPt basis (v + w) + latPt basis w := by rw [← latPt_add, e]
        have e3 : ‖latPt basis v‖ ^ 2 ≤ ‖latPt basis u‖ ^ 2 := pow_le_pow_left₀ (norm_nonneg _) hle 2
        have e4 := norm_sub_sq_real (latPt basis (v + w)) (latPt basis w)
        have e5 := norm_add_sq_real (latPt basis (v + w)) (latPt basis w)
        rw [← e1] at e4
        rw [← e2] at e5
        linarith

/-- The part of a list that matters: everything else splits. -/
def Enough (basis : Fin D → E) (S : Set (Fin D → ℤ)) : Prop := ∀ u, u ≠ 0 → u ∈ S ∨ Splits basis u

theorem cell_of_enough {basis : Fin D → E} (hb : LinearIndependent ℝ basis) {S : Set (Fin D → ℤ)} (hS : Enough basis S) (x : E) :
    x ∈ Cell basis ↔ ∀ v ∈ S, ‖x‖ ≤ ‖x - latPt basis v‖ := by
  refine ⟨fun h v _ => h v, fun h => ?_⟩
  refine descent hb _ fun u ih => ?_
  by_cases hu : u = 0
  · rw [hu, latPt_zero, sub_zero]
  · rcases hS u hu with hm | hs
    · exact h u hm
    · obtain ⟨w, w', e, -, -, l1, l2, l3⟩ := hs.lt hb
      have h1 := (norm_le_iff x _).mp (ih w l1)
      have h2 := (norm_le_iff x _).mp (ih w' l2)
      rw [norm_le_iff]
      have : ⟪x, latPt basis u⟫ = ⟪x, latPt basis w⟫ + ⟪x, latPt basis w'⟫ := by rw [e, latPt_add, inner_add_right]
      linarith

theorem relevant_not_splits {basis : Fin D → E} {u : Fin D → ℤ} (h : Relevant basis u) : ¬ Splits basis u := by
  rintro ⟨w, w', e, h1, h2, l⟩
  obtain ⟨-, x, hx, hz⟩ := h
  have a := (norm_lt_iff x _).mp (hz w h1 fun he => h2 (by rw [← he] at e; simpa using e))
  have b := (norm_lt_iff x _).mp (hz w' h2 fun he => h1 (by rw [← he] at e; simpa using e))
  have c := (norm_eq_iff x _).mp hx
  have : ⟪x, latPt basis u⟫ = ⟪x, latPt basis w⟫ + ⟪x, latPt basis w'⟫ := by rw [e, latPt_add, inner_add_right]
  linarith

theorem relevant_of_enough {basis : Fin D → E} {S : Set (Fin D → ℤ)} (hS : Enough basis S) {u : Fin D → ℤ} (h : Relevant basis u) : u ∈ S :=
  (hS u h.1).resolve_right (relevant_not_splits h)

theorem enough_verts {basis : Fin D → E} (hb : LinearIndependent ℝ basis) {vs : List (Fin D → ℤ)} (hv : Verts basis vs) :
    Enough basis {u | u ∈ vs ++ vs.map fun v => -v} := by
  intro u hu
  rcases splits_or hb hv hu with h | h | h
  · exact Or.inr h
  · left; exact List.mem_append_left _ h
  · left; exact List.mem_append_right _ (List.mem_map.mpr ⟨-u, h, neg_neg u⟩)

/-- **C72**, without `reduced`: `voronoi` returns `2 (2^D - 1)` vectors, the second half minus the first one.  The first half contains one vector of every
nonzero class modulo twice the lattice, a shortest one.  Together they define the Voronoi cell, and all the faces of the cell are among them. -/
theorem C72_voronoi {lsq : (Fin D → E) → E → Fin D → ℝ} {sort : (E → ℝ) → List (Fin D → ℤ) → List (Fin D → ℤ)} {basis : Fin D → E} (hl : LsqOk lsq)
    (hs : SortOk basis sort) (hb : LinearIndependent ℝ basis) {rtol : ℝ} {fuel : ℕ} {R : List (Fin D → ℤ)}
    (h : voronoi lsq sort basis false rtol fuel = some R) :
    R.length = 2 * (2 ^ D - 1) ∧
    (∃ V : List (Fin D → ℤ), R = V ++ V.map (fun v => -v) ∧
      ∀ u : Fin D → ℤ, (∃ i, u i % 2 ≠ 0) → ∃! v, v ∈ V ∧ ∀ i, u i % 2 = v i % 2) ∧
    (∀ v ∈ R, v ≠ 0 ∧ ∀ u : Fin D → ℤ, (∀ i, u i % 2 = v i % 2) → ‖latPt basis v‖ ≤ ‖latPt basis u‖) ∧
    (∀ x, x ∈ Cell basis ↔ ∀ v ∈ R, ‖x‖ ≤ ‖x - latPt basis v‖) ∧
    ∀ u, Relevant basis u → u ∈ R := by
  unfold voronoi at h
  cases hm : mapAll (vertexOf lsq sort basis fuel) (displacements D) with
  | none => rw [hm] at h; cases h
  | some vs =>
    rw [hm] at h
    have hR : vs ++ vs.map (fun v => -v) = R := Option.some.inj h
    have hv := verts hl hs hb hm
    have henough := enough_verts hb hv
    rw [hR] at henough
    refine ⟨?_, ⟨vs, hR.symm, ?_⟩, ?_, fun x => cell_of_enough hb henough x, fun u hu => relevant_of_enough henough hu⟩
    · rw [← hR, List.length_append, List.length_map, hv.len]; omega
    · rintro u ⟨i, hi⟩
      have hc : ¬ SameClass u 0 := fun hc => hi (by simpa using sameClass_iff.mp hc i)
      obtain ⟨v, hvm, hcl⟩ := hv.all u hc
      refine ⟨v, ⟨hvm, sameClass_iff.mp hcl⟩, ?_⟩
      rintro v' ⟨hv'm, hcl'⟩
      by_contra hne
      have hsym : Std.Symm fun u v : Fin D → ℤ => ¬ SameClass u v := ⟨fun _ _ h h' => h (sameClass_symm h')⟩
      have := hv.uniq.forall hv'm hvm hne
      exact this (sameClass_iff.mpr fun i => by rw [← hcl' i, sameClass_iff.mp hcl i])
    · intro v hvR
      rw [← hR, List.mem_append, List.mem_map] at hvR
      rcases hvR with hvm | ⟨v', hvm, rfl⟩
      · refine ⟨fun h0 => hv.ne v hvm (by rw [h0]; exact ⟨0, by simp⟩), fun u hu => hv.short v hvm u (sameClass_iff.mpr hu)⟩
      · refine ⟨fun h0 => hv.ne v' hvm ?_, fun u hu => ?_⟩
        · rw [neg_eq_zero.mp h0]; exact ⟨0, by simp⟩
        · rw [latPt_neg, norm_neg]
          refine hv.short v' hvm u (sameClass_iff.mpr fun i => ?_)
          have := hu i
          rw [Pi.neg_apply] at this
          omega

/-! ### The reduced list -/

theorem products_eq (basis : Fin D → E) (u v : Fin D → ℤ) : products basis u v = ⟪latPt basis u, latPt basis v⟫ := by
  unfold products latPt bbt
  rw [sum_inner]
  refine Finset.sum_congr rfl fun a _ => ?_
  rw [inner_sum]
  refine Finset.sum_congr rfl fun b _ => ?_
  rw [real_inner_smul_left, real_inner_smul_right, Matrix.of_apply]
  ring

theorem keepStep_le (basis : Fin D → E) (rtol : ℝ) (vs : List (Fin D → ℤ)) (keep : ℕ → Bool) (i k : ℕ) (h : keepStep basis rtol vs keep i k = true) :
    keep k = true := by
  unfold keepStep at h
  split at h
  · exact h
  · by_cases hk : k = i
    · rw [hk, Function.update_self] at h; cases h
    · rwa [Function.update_of_ne hk] at h

/-- The loop decides about every vertex with a mask `keepᵢ` between the initial and the final one. -/
structure MaskInv (basis : Fin D → E) (rtol : ℝ) (vs : List (Fin D → ℤ)) (n : ℕ) (keep : ℕ → Bool) : Prop where
  kept : ∀ i < n, keep i = true → ∀ k < vs.length, k ≠ i → keep k = true →
    |0.5 * products basis (vs.getD i 0) (vs.getD k 0) / products basis (vs.getD k 0) (vs.getD k 0)| < 0.5 - rtol
  dropped : ∀ i, keep i = false → ∃ k < vs.length, k ≠ i ∧
    ¬ |0.5 * products basis (vs.getD i 0) (vs.getD k 0) / products basis (vs.getD k 0) (vs.getD k 0)| < 0.5 - rtol

theorem mask_inv (basis : Fin D → E) (rtol : ℝ) (vs : List (Fin D → ℤ)) : MaskInv basis rtol vs vs.length (keepMask basis rtol vs) := by
  unfold keepMask
  refine foldl_range_inv (fun n keep => MaskInv basis rtol vs n keep) _ vs.length (fun n hn keep h => ?_) _ ⟨fun i hi => absurd hi (Nat.not_lt_zero i), fun i hi => by cases hi⟩
  unfold keepStep
  split
  · next hfar =>
    refine ⟨fun i hi hk k hkl hne hkk => ?_, h.dropped⟩
    rcases Nat.lt_succ_iff_lt_or_eq.mp hi with hlt | rfl
    · exact h.kept i hlt hk k hkl hne hkk
    · exact hfar k hkl hne hkk
  · next hfar =>
    have le : ∀ k, Function.update keep n false k = true → keep k = true ∧ k ≠ n := by
      intro k hk
      by_cases e : k = n
      · rw [e, Function.update_self] at hk; cases hk
      · rw [Function.update_of_ne e] at hk; exact ⟨hk, e⟩
    refine ⟨fun i hi hk k hkl hne hkk => ?_, fun i hi => ?_⟩
    · obtain ⟨hk1, hk2⟩ := le i hk
      exact h.kept i (by omega) hk1 k hkl hne (le k hkk).1
    · by_cases e : i = n
      · rw [e]
        unfold farFromAll at hfar
        push Not at hfar
        obtain ⟨k, h1, h2, -, h4⟩ := hfar
        exact ⟨k, h1, h2, not_lt.mpr h4⟩
      · rw [Function.update_of_ne e] at hi
        exact h.dropped i hi

theorem abs_proj (basis : Fin D → E) {u v : Fin D → ℤ} (hv : latPt basis v ≠ 0) (rtol : ℝ) :
    |0.5 * products basis u v / products basis v v| < 0.5 - rtol ↔ |⟪latPt basis u, latPt basis v⟫| < (1 - 2 * rtol) * ‖latPt basis v‖ ^ 2 := by
  rw [products_eq, products_eq, real_inner_self_eq_norm_sq]
  have hp : 0 < ‖latPt basis v‖ ^ 2 := pow_pos (norm_pos_iff.mpr hv) 2
  rw [abs_div, abs_mul, abs_of_pos hp, abs_of_pos (by norm_num : (0 : ℝ) < 0.5), div_lt_iff₀ hp]
  constructor <;> intro h <;> nlinarith

theorem mem_masked {vs : List (Fin D → ℤ)} {keep : ℕ → Bool} {v : Fin D → ℤ} : v ∈ masked vs keep ↔ ∃ k, ∃ _ : k < vs.length, keep k = true ∧ vs.getD k 0 = v := by
  unfold masked
  rw [List.mem_map]
  constructor
  · rintro ⟨k, hk, rfl⟩
    rw [List.mem_filter, List.mem_range] at hk
    exact ⟨k, hk.1, hk.2, rfl⟩
  · rintro ⟨k, h1, h2, rfl⟩
    exact ⟨k, List.mem_filter.mpr ⟨List.mem_range.mpr h1, h2⟩, rfl⟩

/-- A dropped vertex is a sum of two shorter lattice vectors (rtol = 0). -/
theorem dropped_splits {basis : Fin D → E} (hb : LinearIndependent ℝ basis) {u v : Fin D → ℤ} (hv0 : v ≠ 0) (hne : u ≠ v) (hne' : u ≠ -v)
    (h : ‖latPt basis v‖ ^ 2 ≤ |⟪latPt basis u, latPt basis v⟫|) : Splits basis u := by
  rcases le_abs.mp h with h1 | h1
  · refine ⟨v, u - v, by abel, hv0, sub_ne_zero.mpr hne, ?_⟩
    rw [latPt_sub', norm_sub_sq_real]; linarith
  · refine ⟨-v, u + v, by abel, neg_ne_zero.mpr hv0, fun e => hne' (eq_neg_of_add_eq_zero_left e), ?_⟩
    rw [latPt_neg, norm_neg, latPt_add, norm_add_sq_real]; linarith

theorem getD_mem {vs : List (Fin D → ℤ)} {k : ℕ} (h : k < vs.length) : vs.getD k 0 ∈ vs := by
  rw [getD_lt h]; exact List.getElem_mem h

theorem Verts.ne_of {basis : Fin D → E} {vs : List (Fin D → ℤ)} (hv : Verts basis vs) {i k : ℕ} (hi : i < vs.length) (hk : k < vs.length) (hne : k ≠ i) :
    vs.getD i 0 ≠ vs.getD k 0 ∧ vs.getD i 0 ≠ -vs.getD k 0 := by
  have key : ¬ SameClass (vs.getD i 0) (vs.getD k 0) := by
    rw [getD_lt hi, getD_lt hk]
    rcases Nat.lt_or_gt_of_ne hne with h | h
    · exact fun hc => List.pairwise_iff_getElem.mp hv.uniq k i hk hi h (sameClass_symm hc)
    · exact List.pairwise_iff_getElem.mp hv.uniq i k hi hk h
  refine ⟨fun e => key (by rw [e]; exact ⟨0, by simp⟩), fun e => key ?_⟩
  rw [e]; exact sameClass_iff.mpr fun i => by rw [Pi.neg_apply]; omega

theorem Verts.ne0 {basis : Fin D → E} {vs : List (Fin D → ℤ)} (hv : Verts basis vs) {v : Fin D → ℤ} (h : v ∈ vs) : v ≠ 0 :=
  fun e => hv.ne v h (by rw [e]; exact ⟨0, by simp⟩)

theorem enough_masked {basis : Fin D → E} (hb : LinearIndependent ℝ basis) {vs : List (Fin D → ℤ)} (hv : Verts basis vs) :
    Enough basis {u | u ∈ masked vs (keepMask basis 0 vs) ++ (masked vs (keepMask basis 0 vs)).map fun v => -v} := by
  have inv := mask_inv basis 0 vs
  have key : ∀ u ∈ vs, u ∈ masked vs (keepMask basis 0 vs) ∨ Splits basis u := by
    intro u hu
    obtain ⟨i, hi, rfl⟩ := List.getElem_of_mem hu
    cases hk : keepMask basis 0 vs i with
    | true => exact Or.inl (mem_masked.mpr ⟨i, hi, hk, getD_lt hi⟩)
    | false =>
      right
      obtain ⟨k, hkl, hne, hfar⟩ := inv.dropped i hk
      have hk0 := hv.ne0 (getD_mem hkl)
      rw [abs_proj basis (latPt_ne hb hk0), not_lt] at hfar
      obtain ⟨n1, n2⟩ := hv.ne_of hi hkl hne
      rw [← getD_lt (a := 0) hi]
      exact dropped_splits hb hk0 n1 n2 (by linarith)
  intro u hu
  rcases splits_or hb hv hu with h | h | h
  · exact Or.inr h
  · rcases key u h with h' | h'
    · left; exact List.mem_append_left _ h'
    · exact Or.inr h'
  · rcases key _ h with h' | ⟨w, w', e, h1, h2, h3⟩
    · left; exact List.mem_append_right _ (List.mem_map.mpr ⟨-u, h', neg_neg u⟩)
    · refine Or.inr ⟨-w, -w', by rw [← neg_neg u, e]; abel, neg_ne_zero.mpr h1, neg_ne_zero.mpr h2, ?_⟩
      rw [latPt_neg, latPt_neg, norm_neg, norm_neg]
      rwa [latPt_neg, norm_neg] at h3

theorem relevant_neg {basis : Fin D → E} {u : Fin D → ℤ} (h : Relevant basis u) : Relevant basis (-u) := by
  obtain ⟨h0, x, h1, h2⟩ := h
  refine ⟨neg_ne_zero.mpr h0, -x, ?_, fun z hz hzu => ?_⟩
  · rw [latPt_neg, norm_neg, h1, ← norm_neg]; congr 1; abel
  · have := h2 (-z) (neg_ne_zero.mpr hz) fun e => hzu (by rw [← e, neg_neg])
    rw [norm_neg, ← norm_neg (-x - _)]
    rw [latPt_neg] at this
    have e : -(-x - latPt basis z) = x - -latPt basis z := by abel
    rwa [e]

theorem kept_relevant {basis : Fin D → E} (hb : LinearIndependent ℝ basis) {vs : List (Fin D → ℤ)} (hv : Verts basis vs) {v : Fin D → ℤ}
    (h : v ∈ masked vs (keepMask basis 0 vs)) : Relevant basis v := by
  have inv := mask_inv basis 0 vs
  obtain ⟨i, hi, hk, rfl⟩ := mem_masked.mp h
  set v := vs.getD i 0 with hvdef
  have hv0 : v ≠ 0 := hv.ne0 (getD_mem hi)
  have henough := enough_masked hb hv
  -- all shorter lattice vectors
  have short : ∀ z, z ≠ 0 → ‖latPt basis z‖ < ‖latPt basis v‖ → ⟪latPt basis v, latPt basis z⟫ < ‖latPt basis z‖ ^ 2 := by
    refine descent hb _ fun z ih hz0 hz => ?_
    rcases henough z hz0 with hm | hsp
    · have keptlt : ∀ k, k < vs.length → keepMask basis 0 vs k = true → ‖latPt basis (vs.getD k 0)‖ < ‖latPt basis v‖ →
          |⟪latPt basis v, latPt basis (vs.getD k 0)⟫| < ‖latPt basis (vs.getD k 0)‖ ^ 2 := by
        intro k hkl hkk hlt
        have hne : k ≠ i := by rintro rfl; exact lt_irrefl _ hlt
        have := inv.kept i hi hk k hkl hne hkk
        rw [abs_proj basis (latPt_ne hb (hv.ne0 (getD_mem hkl)))] at this
        rw [mul_zero, sub_zero, one_mul] at this
        exact this
      rcases List.mem_append.mp hm with hm | hm
      · obtain ⟨k, hkl, hkk, rfl⟩ := mem_masked.mp hm
        exact lt_of_le_of_lt (le_abs_self _) (keptlt k hkl hkk hz)
      · obtain ⟨z', hm', rfl⟩ := List.mem_map.mp hm
        obtain ⟨k, hkl, hkk, rfl⟩ := mem_masked.mp hm'
        rw [latPt_neg, norm_neg] at hz ⊢
        rw [inner_neg_right]
        exact lt_of_le_of_lt (neg_le_abs _) (keptlt k hkl hkk hz)
    · obtain ⟨w, w', e, w0, w0', l1, l2, l3⟩ := hsp.lt hb
      have h1 := ih w l1 w0 (l1.trans hz)
      have h2 := ih w' l2 w0' (l2.trans hz)
      have : ⟪latPt basis v, latPt basis z⟫ = ⟪latPt basis v, latPt basis w⟫ + ⟪latPt basis v, latPt basis w'⟫ := by rw [e, latPt_add, inner_add_right]
      linarith
  refine ⟨hv0, (1 / 2 : ℝ) • latPt basis v, ?_, fun z hz hzv => ?_⟩
  · rw [norm_eq_iff, real_inner_smul_left, real_inner_self_eq_norm_sq]; ring
  · rw [norm_lt_iff, real_inner_smul_left]
    by_cases hlt : ‖latPt basis z‖ < ‖latPt basis v‖
    · have := short z hz hlt; linarith
    · push Not at hlt
      have hsq : ‖latPt basis v‖ ^ 2 ≤ ‖latPt basis z‖ ^ 2 := pow_le_pow_left₀ (norm_nonneg _) hlt 2
      have hpos : 0 < ‖latPt basis v - latPt basis z‖ ^ 2 :=
        pow_pos (norm_pos_iff.mpr (sub_ne_zero.mpr fun e => hzv (latPt_inj hb e.symm))) 2
      rw [norm_sub_sq_real] at hpos
      linarith

/-- **C72**, with `reduced` and `rtol = 0`: the returned vectors are exactly those of the faces of the Voronoi cell (the minimal set), the second half minus
the first one, and they define the cell. -/
theorem C72_reduced {lsq : (Fin D → E) → E → Fin D → ℝ} {sort : (E → ℝ) → List (Fin D → ℤ) → List (Fin D → ℤ)} {basis : Fin D → E} (hl : LsqOk lsq)
    (hs : SortOk basis sort) (hb : LinearIndependent ℝ basis) {fuel : ℕ} {R : List (Fin D → ℤ)}
    (h : voronoi lsq sort basis true 0 fuel = some R) :
    R.Nodup ∧ (∃ V : List (Fin D → ℤ), R = V ++ V.map (fun v => -v)) ∧
    (∀ x, x ∈ Cell basis ↔ ∀ v ∈ R, ‖x‖ ≤ ‖x - latPt basis v‖) ∧
    ∀ u, u ∈ R ↔ Relevant basis u := by
  unfold voronoi at h
  cases hm : mapAll (vertexOf lsq sort basis fuel) (displacements D) with
  | none => rw [hm] at h; cases h
  | some vs =>
    rw [hm] at h
    have hR : masked vs (keepMask basis 0 vs) ++ (masked vs (keepMask basis 0 vs)).map (fun v => -v) = R := Option.some.inj h
    have hv := verts hl hs hb hm
    have henough := enough_masked hb hv
    rw [hR] at henough
    refine ⟨?_, ⟨_, hR.symm⟩, fun x => cell_of_enough hb henough x, fun u => ⟨fun hu => ?_, fun hu => relevant_of_enough henough hu⟩⟩
    · have nd : (masked vs (keepMask basis 0 vs)).Nodup := by
        unfold masked
        refine List.Nodup.map_on ?_ (List.nodup_range.filter _)
        intro a ha b hb' hab
        rw [List.mem_filter, List.mem_range] at ha hb'
        by_contra hne
        exact (hv.ne_of ha.1 hb'.1 (Ne.symm hne)).1 hab
      rw [← hR]
      refine List.nodup_append.mpr ⟨nd, nd.map neg_injective, ?_⟩
      rintro a ha b hb' rfl
      obtain ⟨b, hb2, e⟩ := List.mem_map.mp hb'
      obtain ⟨i, hi, -, rfl⟩ := mem_masked.mp ha
      obtain ⟨k, hk, -, rfl⟩ := mem_masked.mp hb2
      by_cases hik : k = i
      · rw [hik] at e
        have : vs.getD i 0 = 0 := by
          have e' : -vs.getD i 0 = vs.getD i 0 := e
          funext j
          have := congrFun e' j
          rw [Pi.neg_apply] at this
          rw [Pi.zero_apply]; omega
        exact hv.ne0 (getD_mem hi) this
      · exact (hv.ne_of hi hk hik).2 e.symm
    · rw [← hR] at hu
      rcases List.mem_append.mp hu with hu | hu
      · exact kept_relevant hb hv hu
      · obtain ⟨v, hvm, rfl⟩ := List.mem_map.mp hu
        exact relevant_neg (kept_relevant hb hv hvm)

/-- **C72**, with `reduced` and any tolerance `0 ≤ rtol`: no returned vector is redundant, that is every one of them cuts off something that all the other
ones leave. -/
theorem C72_irredundant {lsq : (Fin D → E) → E → Fin D → ℝ} {sort : (E → ℝ) → List (Fin D → ℤ) → List (Fin D → ℤ)} {basis : Fin D → E} (hl : LsqOk lsq)
    (hs : SortOk basis sort) (hb : LinearIndependent ℝ basis) {rtol : ℝ} (hr : 0 ≤ rtol) {fuel : ℕ} {R : List (Fin D → ℤ)}
    (h : voronoi lsq sort basis true rtol fuel = some R) {v : Fin D → ℤ} (hvR : v ∈ R) :
    ∃ x : E, ‖x - latPt basis v‖ < ‖x‖ ∧ ∀ u ∈ R, u ≠ v → ‖x‖ ≤ ‖x - latPt basis u‖ := by
  unfold voronoi at h
  cases hm : mapAll (vertexOf lsq sort basis fuel) (displacements D) with
  | none => rw [hm] at h; cases h
  | some vs =>
    rw [hm] at h
    have hR : masked vs (keepMask basis rtol vs) ++ (masked vs (keepMask basis rtol vs)).map (fun v => -v) = R := Option.some.inj h
    have hv := verts hl hs hb hm
    have inv := mask_inv basis rtol vs
    -- membership up to a sign
    have mem : ∀ u ∈ R, ∃ k, ∃ _ : k < vs.length, keepMask basis rtol vs k = true ∧ (vs.getD k 0 = u ∨ -vs.getD k 0 = u) := by
      intro u hu
      rw [← hR] at hu
      rcases List.mem_append.mp hu with hu | hu
      · obtain ⟨k, h1, h2, h3⟩ := mem_masked.mp hu; exact ⟨k, h1, h2, Or.inl h3⟩
      · obtain ⟨u', hu', rfl⟩ := List.mem_map.mp hu
        obtain ⟨k, h1, h2, h3⟩ := mem_masked.mp hu'; exact ⟨k, h1, h2, Or.inr (by rw [h3])⟩
    have strict : ∀ u ∈ R, u ≠ v → ⟪latPt basis v, latPt basis u⟫ < ‖latPt basis u‖ ^ 2 := by
      intro u hu hne
      obtain ⟨i, hi, hki, hiv⟩ := mem v hvR
      obtain ⟨k, hk, hkk, hku⟩ := mem u hu
      have hk0 := hv.ne0 (getD_mem hk)
      have hpos : 0 < ‖latPt basis (vs.getD k 0)‖ ^ 2 := pow_pos (norm_pos_iff.mpr (latPt_ne hb hk0)) 2
      by_cases hik : k = i
      · subst hik
        have : u = -v := by
          rcases hiv with e | e <;> rcases hku with f | f
          · exact absurd (f.symm.trans e) hne
          · rw [← e, ← f]
          · rw [← e, ← f, neg_neg]
          · exact absurd (f.symm.trans e) hne
        rw [this, latPt_neg, inner_neg_right, norm_neg, real_inner_self_eq_norm_sq]
        have : 0 < ‖latPt basis v‖ ^ 2 := by
          rcases hiv with e | e
          · rw [← e]; exact hpos
          · rw [← e, latPt_neg, norm_neg]; exact hpos
        linarith
      · have hf := inv.kept i hi hki k hk hik hkk
        rw [abs_proj basis (latPt_ne hb hk0)] at hf
        have hf' : |⟪latPt basis (vs.getD i 0), latPt basis (vs.getD k 0)⟫| < ‖latPt basis (vs.getD k 0)‖ ^ 2 := by nlinarith
        rcases hiv with e | e <;> rcases hku with f | f <;> rw [← e, ← f] <;> try simp only [latPt_neg, inner_neg_left, inner_neg_right, norm_neg, neg_neg]
        · exact lt_of_le_of_lt (le_abs_self _) hf'
        · exact lt_of_le_of_lt (neg_le_abs _) hf'
        · exact lt_of_le_of_lt (neg_le_abs _) hf'
        · exact lt_of_le_of_lt (le_abs_self _) hf'
    have hv0 : latPt basis v ≠ 0 := by
      obtain ⟨i, hi, -, hiv⟩ := mem v hvR
      have := latPt_ne hb (hv.ne0 (getD_mem hi))
      rcases hiv with e | e
      · rwa [← e]
      · rw [← e, latPt_neg]; exact neg_ne_zero.mpr this
    have hvp : 0 < ‖latPt basis v‖ ^ 2 := pow_pos (norm_pos_iff.mpr hv0) 2
    -- a factor slightly larger than one
    have eps : ∀ l : List (Fin D → ℤ), (∀ u ∈ l, ⟪latPt basis v, latPt basis u⟫ < ‖latPt basis u‖ ^ 2) →
        ∃ t : ℝ, 1 < t ∧ ∀ u ∈ l, t * ⟪latPt basis v, latPt basis u⟫ ≤ ‖latPt basis u‖ ^ 2 := by
      intro l
      induction l with
      | nil => exact fun _ => ⟨2, by norm_num, fun u hu => by cases hu⟩
      | cons a l ih =>
        intro hl'
        obtain ⟨t, ht, htl⟩ := ih fun u hu => hl' u (List.mem_cons_of_mem _ hu)
        have ha := hl' a List.mem_cons_self
        by_cases hp : ⟪latPt basis v, latPt basis a⟫ ≤ 0
        · refine ⟨t, ht, fun u hu => ?_⟩
          rcases List.mem_cons.mp hu with rfl | hu
          · nlinarith [sq_nonneg ‖latPt basis u‖]
          · exact htl u hu
        · push Not at hp
          refine ⟨min t (‖latPt basis a‖ ^ 2 / ⟪latPt basis v, latPt basis a⟫), lt_min ht ((one_lt_div hp).mpr ha), fun u hu => ?_⟩
          rcases List.mem_cons.mp hu with rfl | hu
          · have := min_le_right t (‖latPt basis u‖ ^ 2 / ⟪latPt basis v, latPt basis u⟫)
            exact (le_div_iff₀ hp).mp this
          · by_cases hq : ⟪latPt basis v, latPt basis u⟫ ≤ 0
            · have h1 : 0 < min t (‖latPt basis a‖ ^ 2 / ⟪latPt basis v, latPt basis a⟫) :=
                lt_trans one_pos (lt_min ht ((one_lt_div hp).mpr ha))
              nlinarith [sq_nonneg ‖latPt basis u‖]
            · push Not at hq
              exact le_trans (mul_le_mul_of_nonneg_right (min_le_left _ _) hq.le) (htl u hu)
    obtain ⟨t, ht, htl⟩ := eps (R.filter fun u => u ≠ v) fun u hu => by
      rw [List.mem_filter] at hu
      exact strict u hu.1 (by simpa using hu.2)
    refine ⟨(t / 2) • latPt basis v, ?_, fun u hu hne => ?_⟩
    · rw [← not_le, norm_le_iff, real_inner_smul_left, real_inner_self_eq_norm_sq, not_le]
      nlinarith
    · rw [norm_le_iff, real_inner_smul_left]
      have := htl u (List.mem_filter.mpr ⟨hu, by simpa using hne⟩)
      linarith

/-! ### Termination and examples -/

theorem cvpLoop_mono {sort : (E → ℝ) → List (Fin D → ℤ) → List (Fin D → ℤ)} {basis : Fin D → E} {vec : E} {center : Fin D → ℤ} {n : ℕ} {group : Bool} {rtol : ℝ} :
    ∀ {fuel l : ℕ} {R : List (Fin D → ℤ)}, cvpLoop sort basis vec center n group rtol fuel l = some R →
      ∀ fuel', fuel ≤ fuel' → cvpLoop sort basis vec center n group rtol fuel' l = some R
  | 0, _, _, h => by cases h
  | fuel + 1, l, R, h => by
    intro fuel' hf
    obtain ⟨f, rfl⟩ : ∃ f, fuel' = f + 1 := ⟨fuel' - 1, by omega⟩
    unfold cvpLoop at h ⊢
    split at h
    · next ha => rw [if_pos ha]; exact h
    · next ha => rw [if_neg ha]; exact cvpLoop_mono h f (by omega)

theorem mapAll_ends {α β : Type*} {f : ℕ → α → Option β} (mono : ∀ n m a b, n ≤ m → f n a = some b → f m a = some b) :
    ∀ l : List α, (∀ a ∈ l, ∃ n b, f n a = some b) → ∃ n r, ∀ m, n ≤ m → mapAll (f m) l = some r
  | [], _ => ⟨0, [], fun _ _ => rfl⟩
  | a :: l, h => by
    obtain ⟨n, r, hr⟩ := mapAll_ends mono l fun b hb => h b (List.mem_cons_of_mem _ hb)
    obtain ⟨k, b, hb⟩ := h a List.mem_cons_self
    refine ⟨max n k, b :: r, fun m hm => ?_⟩
    unfold mapAll
    rw [mono k m a b (le_trans (le_max_right _ _) hm) hb, Option.bind_some, hr m (le_trans (le_max_left _ _) hm), Option.map_some]

/-- **C72**, termination: `voronoi` ends for every basis. -/
theorem C72_terminates {lsq : (Fin D → E) → E → Fin D → ℝ} {sort : (E → ℝ) → List (Fin D → ℤ) → List (Fin D → ℤ)} {basis : Fin D → E} (hl : LsqOk lsq)
    (hs : SortOk basis sort) (hb : LinearIndependent ℝ basis) (reduced : Bool) (rtol : ℝ) : ∃ fuel R, voronoi lsq sort basis reduced rtol fuel = some R := by
  obtain ⟨n, r, h⟩ := mapAll_ends (f := vertexOf lsq sort basis) (fun n m a b hnm h => by
      unfold vertexOf at h ⊢
      cases hc : cvp lsq sort (realPt basis a) basis 1 false 1e-9 n with
      | none => rw [hc] at h; cases h
      | some R =>
        rw [hc] at h
        have : cvp lsq sort (realPt basis a) basis 1 false 1e-9 m = some R := cvpLoop_mono hc m hnm
        rw [this]; exact h) (displacements D) (fun d hd => by
      have hD : 1 ≤ D := by
        by_contra h0
        have : D = 0 := by omega
        subst this
        exact ((mem_displacements d).mp hd).2 (funext fun i => i.elim0)
      obtain ⟨fuel, R, hR⟩ := C71_terminates (lsq := lsq) hs hb hD (realPt basis d) le_rfl 1e-9
      obtain ⟨c, rfl⟩ := List.length_eq_one_iff.mp (C71_closest hl hs hb le_rfl hR).1
      refine ⟨fuel, fun i => npRound (((c i : ℝ) - d i) * 2), ?_⟩
      unfold vertexOf
      rw [hR]; rfl)
  have : ∃ R, voronoi lsq sort basis reduced rtol n = some R := by
    unfold voronoi
    rw [h n le_rfl]
    exact ⟨_, rfl⟩
  exact ⟨n, this⟩

/-- A least-squares solver with the required contract exists. -/
theorem exists_lsq (D : ℕ) : ∃ lsq : (Fin D → E) → E → Fin D → ℝ, LsqOk lsq := by
  have key : ∀ (basis : Fin D → E) (vec : E), ∃ x : Fin D → ℝ, ∀ i, ⟪basis i, vec - realPt basis x⟫ = 0 := by
    intro basis vec
    let K : Submodule ℝ E := Submodule.span ℝ (Set.range basis)
    have hK : FiniteDimensional ℝ K := FiniteDimensional.span_of_finite ℝ (Set.finite_range basis)
    have hmem : ((K.orthogonalProjectionOnto vec : K) : E) ∈ K := Submodule.coe_mem _
    obtain ⟨x, hx⟩ := (Submodule.mem_span_range_iff_exists_fun ℝ).mp hmem
    refine ⟨x, fun i => ?_⟩
    have : realPt basis x = ((K.orthogonalProjectionOnto vec : K) : E) := hx
    rw [this]
    exact Submodule.sub_starProjection_mem_orthogonal vec (basis i) (Submodule.subset_span ⟨i, rfl⟩)
  choose f hf using key
  exact ⟨f, hf⟩

/-- A sort with the required contract exists. -/
theorem exists_sort (basis : Fin D → E) : ∃ sort : (E → ℝ) → List (Fin D → ℤ) → List (Fin D → ℤ), SortOk basis sort := by
  classical
  refine ⟨fun f l => l.insertionSort fun a b => f (latPt basis a) ≤ f (latPt basis b), fun f l => ⟨List.perm_insertionSort _ l, ?_⟩⟩
  have : Std.Total fun a b : Fin D → ℤ => f (latPt basis a) ≤ f (latPt basis b) := ⟨fun a b => le_total _ _⟩
  have : IsTrans (Fin D → ℤ) fun a b => f (latPt basis a) ≤ f (latPt basis b) := ⟨fun a b c => le_trans⟩
  exact List.pairwise_insertionSort _ l

/-- A basis of the plane that is not orthogonal. -/
noncomputable def skew : Fin 2 → EuclideanSpace ℝ (Fin 2) := ![!₂[1, 0], !₂[3, 1]]

theorem skew_li : LinearIndependent ℝ skew := by
  rw [skew, LinearIndependent.pair_iff]
  intro s t h
  have h0 := congrArg (fun v : EuclideanSpace ℝ (Fin 2) => v 0) h
  have h1 := congrArg (fun v : EuclideanSpace ℝ (Fin 2) => v 1) h
  simp at h0 h1
  subst h1
  simpa using h0

/-- The hypotheses of the theorems about `lll`, `cvp` and `voronoi` can be satisfied. -/
example : ∃ (lsq : (Fin 2 → EuclideanSpace ℝ (Fin 2)) → EuclideanSpace ℝ (Fin 2) → Fin 2 → ℝ)
    (sort : (EuclideanSpace ℝ (Fin 2) → ℝ) → List (Fin 2 → ℤ) → List (Fin 2 → ℤ)),
    LsqOk lsq ∧ SortOk skew sort ∧ LinearIndependent ℝ skew ∧ (∃ fuel R, cvp lsq sort !₂[0.3, 17] skew 5 false 0 fuel = some R) ∧
      ∃ fuel R, voronoi lsq sort skew true 0 fuel = some R := by
  obtain ⟨lsq, hl⟩ := exists_lsq (E := EuclideanSpace ℝ (Fin 2)) 2
  obtain ⟨sort, hs⟩ := exists_sort skew
  exact ⟨lsq, sort, hl, hs, skew_li, C71_terminates hs skew_li (by norm_num) _ (by norm_num) _, C72_terminates hl hs skew_li _ _⟩

/-- The hypotheses of `C70_lll` can be satisfied. -/
example : ∃ lstsq : (Fin 2 → EuclideanSpace ℝ (Fin 2)) → (Fin 2 → EuclideanSpace ℝ (Fin 2)) → Matrix (Fin 2) (Fin 2) ℝ,
    LstsqOk lstsq ∧ LinearIndependent ℝ skew ∧ ∃ fuel r, lll lstsq skew 1.34 fuel = some r := by
  classical
  have key : ∀ a b : Fin 2 → EuclideanSpace ℝ (Fin 2), ∃ y : Matrix (Fin 2) (Fin 2) ℝ,
      (∃ x : Matrix (Fin 2) (Fin 2) ℝ, ∀ k, b k = ∑ j, x j k • a j) → ∀ k, b k = ∑ j, y j k • a j := by
    intro a b
    by_cases h : ∃ x : Matrix (Fin 2) (Fin 2) ℝ, ∀ k, b k = ∑ j, x j k • a j
    · obtain ⟨x, hx⟩ := h; exact ⟨x, fun _ => hx⟩
    · exact ⟨0, fun h' => absurd h' h⟩
  choose f hf using key
  exact ⟨f, hf, skew_li, C70_terminates _ skew_li (by norm_num)⟩

end Kwant.Voronoi
