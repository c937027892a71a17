import Verif.Lattice.Lattice

/-!
C102: the vectors along which the flood fill of `Polyatomic.shape` moves (`self.voronoi`, lattice.py l.123, l.454).
-/

set_option linter.unusedSectionVars false

namespace Kwant.Lat
open Kwant.LLL Kwant.Cvp Kwant.Voronoi InnerProductSpace

variable {E : Type*} [NormedAddCommGroup E] [InnerProductSpace ℝ E] {D : ℕ} {L : Type*} [DecidableEq L]

local notation "⟪" x ", " y "⟫" => inner ℝ x y

/-! ### Bases that LLL does not change -/

theorem npRound_small {x : ℝ} (h : |x| ≤ 1 / 2) : npRound x = 0 := by
  obtain ⟨h1, h2⟩ := abs_le.mp h
  unfold npRound
  by_cases hx : 0 ≤ x
  · have hf : ⌊x⌋ = 0 := Int.floor_eq_zero_iff.mpr ⟨hx, by linarith⟩
    rw [hf]
    norm_num
    intro h3
    linarith
  · have hf : ⌊x⌋ = -1 := by
      rw [Int.floor_eq_iff]
      push_cast
      constructor <;> linarith
    rw [hf]
    norm_num
    linarith

/-- Size-reduced: the textbook condition on the Gram-Schmidt coefficients. -/
def SizeReduced {m : ℕ} (basis : Fin m → E) : Prop := ∀ i j : Fin m, j < i → |⟪basis i, gramSchmidt ℝ basis j⟫| ≤ ‖gramSchmidt ℝ basis j‖ ^ 2 / 2

theorem llReduce_id (i : ℕ) (t : St E) (h : ∀ j < i, npRound (t.u i j) = 0) : (llReduce i t).vecs = t.vecs := by
  refine (foldl_inv (fun s : St E => s.vecs = t.vecs ∧ s.u = t.u) (redStep i) _ ?_ t ⟨rfl, rfl⟩).1
  rintro s j hj ⟨h1, h2⟩
  have hji : j < i := by simpa using hj
  have h0 : npRound (s.u i j) = 0 := by rw [h2]; exact h j hji
  unfold redStep
  simp only [h0, Int.cast_zero, zero_smul, sub_zero, zero_mul, Function.update_eq_self]
  exact ⟨h1, h2⟩

theorem gs_step {m : ℕ} (basis : Fin m → E) (i : Fin m) :
    gramSchmidt ℝ basis i = basis i - ∑ j ∈ Finset.Iio i, gsCoef (basis i) (gramSchmidt ℝ basis j) • gramSchmidt ℝ basis j := by
  rw [gramSchmidt_def]
  congr 1
  refine Finset.sum_congr rfl fun j _ => ?_
  rw [Submodule.starProjection_singleton]
  unfold gsCoef
  rw [real_inner_comm]
  rfl

theorem gsCoef_small {m : ℕ} {basis : Fin m → E} (hs : SizeReduced basis) {i j : Fin m} (h : j < i) : npRound (gsCoef (basis i) (gramSchmidt ℝ basis j)) = 0 := by
  apply npRound_small
  unfold gsCoef
  have := hs i j h
  by_cases h0 : ‖gramSchmidt ℝ basis j‖ ^ 2 = 0
  · rw [h0, div_zero, abs_zero]; norm_num
  · have hp : 0 < ‖gramSchmidt ℝ basis j‖ ^ 2 := lt_of_le_of_ne (sq_nonneg _) (Ne.symm h0)
    rw [abs_div, abs_of_pos hp, div_le_iff₀ hp]
    linarith

theorem init_id {m : ℕ} {basis : Fin m → E} (hs : SizeReduced basis) :
    (∀ k : Fin m, (initSt m (rows basis)).vecs k = basis k) ∧ ∀ k : Fin m, (initSt m (rows basis)).star k = gramSchmidt ℝ basis k := by
  have hr : ∀ k : Fin m, rows basis k = basis k := fun k => by unfold rows; rw [dif_pos k.isLt]
  have key := foldl_range_inv (fun i (s : St E) => (∀ k : Fin m, s.vecs k = basis k) ∧ ∀ k : Fin m, s.star k = if k.val < i then gramSchmidt ℝ basis k else basis k)
    initRow m ?_ ⟨rows basis, rows basis, fun i j => if i = j then 1 else 0⟩ ⟨hr, fun k => by rw [if_neg (Nat.not_lt_zero _)]; exact hr k⟩
  · exact ⟨key.1, fun k => by rw [initSt, key.2 k, if_pos k.isLt]⟩
  · rintro i hi s ⟨h1, h2⟩
    obtain ⟨e1, e2, e3⟩ := initInner_fold s i i le_rfl
    unfold initRow
    set t := (List.range i).foldl (initInner i) s with ht
    have hst : ∀ j (hj : j < i), s.star j = gramSchmidt ℝ basis ⟨j, by omega⟩ := fun j hj => by
      have := h2 ⟨j, by omega⟩
      rwa [if_pos hj] at this
    have hu : ∀ j < i, npRound (t.u i j) = 0 := by
      intro j hj
      rw [e3, Function.update_self, if_pos hj, hst j hj, h1 ⟨i, hi⟩]
      exact gsCoef_small hs (i := ⟨i, hi⟩) (Fin.mk_lt_mk.mpr hj)
    refine ⟨fun k => ?_, fun k => ?_⟩
    · rw [llReduce_id i t hu, e1]; exact h1 k
    · rw [(llReduce_frame t i).1, e2]
      by_cases hk : k.val = i
      · have hki : k = ⟨i, hi⟩ := Fin.ext hk
        rw [hk, Function.update_self, if_pos (by omega), hki, gs_step, h1 ⟨i, hi⟩, h2 ⟨i, hi⟩, if_neg (by show ¬ i < i; omega)]
        congr 1
        have hI : Finset.Iio (⟨i, hi⟩ : Fin m) = Finset.univ.filter fun j : Fin m => j.val < i := by
          ext j; simp [Fin.lt_def]
        rw [hI, Finset.sum_filter]
        rw [Finset.sum_range]
        refine (Finset.sum_bij_ne_zero (fun (a : Fin m) _ _ => (⟨min a.val (i - 1), ?_⟩ : Fin i)) ?_ ?_ ?_ ?_).symm
        · next ha hn =>
          have : a.val < i := by
            by_contra hc; exact hn (if_neg hc)
          omega
        · intros; exact Finset.mem_univ _
        · intro a _ ha b _ hb e
          have ha' : a.val < i := by by_contra hc; exact ha (if_neg hc)
          have hb' : b.val < i := by by_contra hc; exact hb (if_neg hc)
          have := Fin.mk.inj e
          apply Fin.ext
          omega
        · intro b _ hb
          refine ⟨⟨b.val, by omega⟩, Finset.mem_univ _, ?_, ?_⟩
          · rw [if_pos b.isLt]
            rwa [hst b b.isLt] at hb
          · apply Fin.ext; show min b.val (i - 1) = b.val; omega
        · intro a _ ha
          have ha' : a.val < i := by by_contra hc; exact ha (if_neg hc)
          have hm : min a.val (i - 1) = a.val := by omega
          rw [if_pos ha']
          show _ = gsCoef _ (s.star (min a.val (i - 1))) • s.star (min a.val (i - 1))
          rw [hm, hst a ha']
      · rw [Function.update_of_ne hk, h2 k]
        by_cases hlt : k.val < i
        · rw [if_pos hlt, if_pos (by omega)]
        · rw [if_neg hlt, if_neg (by omega)]

/-- `lll` leaves a basis alone that is already reduced. -/
theorem lll_id {m : ℕ} {lstsq : (Fin m → E) → (Fin m → E) → Matrix (Fin m) (Fin m) ℝ} (hl : LstsqOk lstsq) {basis : Fin m → E}
    (hb : LinearIndependent ℝ basis) {c : ℝ} (hs : SizeReduced basis) (hc : CReduced c basis) {fuel : ℕ}
    {r : Except LErr ((Fin m → E) × Matrix (Fin m) (Fin m) ℤ)} (h : lll lstsq basis c fuel = some r) : r = .ok (basis, 1) := by
  obtain ⟨v, coefs, rfl, -, -, h3, -, -⟩ := C70_lll hl hb h
  obtain ⟨i1, i2⟩ := init_id hs
  have hlov : ∀ i, i + 1 < m → lovasz c i (initSt m (rows basis)) := by
    intro i hi
    unfold lovasz
    have a := i2 ⟨i, by omega⟩
    have b := i2 ⟨i + 1, hi⟩
    simp only at a b
    rw [a, b]
    exact hc ⟨i, by omega⟩ ⟨i + 1, hi⟩ rfl
  have hv : v = basis := by
    unfold lll at h
    obtain ⟨s, h1, h2⟩ := Option.map_eq_some_iff.mp h
    have hse : s = initSt m (rows basis) := by
      clear h2 h
      have gen : ∀ fuel i, mainLoop m c fuel (i, initSt m (rows basis)) = some s → s = initSt m (rows basis) := by
        intro fuel
        induction fuel with
        | zero => intro i hi; cases hi
        | succ fuel ih =>
          intro i hi
          unfold mainLoop at hi
          split at hi
          · next hlt =>
            have : mainStep m c (i, initSt m (rows basis)) = (i + 1, initSt m (rows basis)) := by
              unfold mainStep
              exact if_pos (hlov i hlt)
            rw [this] at hi
            exact ih _ hi
          · exact (Option.some.inj hi).symm
      exact gen fuel 0 h1
    subst hse
    unfold finish at h2
    split at h2
    · cases h2
    · split at h2
      · cases h2
      · injection h2 with h2
        rw [← (Prod.mk.inj h2).1]
        funext k
        exact i1 k
  subst hv
  congr 2
  ext j k
  have e : ∑ i, ((coefs i k : ℝ) - (if i = k then 1 else 0)) • v i = 0 := by
    simp only [sub_smul, Finset.sum_sub_distrib, ite_smul, one_smul, zero_smul, Finset.sum_ite_eq', Finset.mem_univ, if_true]
    rw [sub_eq_zero]
    conv_rhs => rw [h3 k]
    exact Finset.sum_congr rfl fun i _ => Int.cast_smul_eq_zsmul ℝ _ _
  have := Fintype.linearIndependent_iff.mp hb _ e j
  rw [Matrix.one_apply]
  have h2 : (coefs j k : ℝ) = if j = k then 1 else 0 := sub_eq_zero.mp this
  by_cases hjk : j = k
  · rw [if_pos hjk] at h2 ⊢; exact_mod_cast h2
  · rw [if_neg hjk] at h2 ⊢; exact_mod_cast h2

/-! ### The vectors of the flood fill -/

/-- **C102**, partial (missing: bases that LLL changes, see `C102_counterexample`): for primitive vectors that are already reduced, the vectors along which the
flood fill moves define the Voronoi cell of the lattice and contain all its neighbors, that is, the lattice vectors whose Voronoi cells have a face in common with
the cell of the origin. -/
theorem C102_deltas_partial {N : Num E D} (hN : NumOk N) {prim : Fin D → E} (hb : LinearIndependent ℝ prim) (hs : SizeReduced prim) (hc : CReduced 1.34 prim)
    {fuel fuel' : ℕ} {aux : Aux E D} (h : initAux N prim fuel fuel' = some (.ok aux)) :
    (∀ u, Relevant prim u → u ∈ aux.voronoi) ∧ ∀ x, x ∈ Cell prim ↔ ∀ v ∈ aux.voronoi, ‖x‖ ≤ ‖x - latPt prim v‖ := by
  obtain ⟨aux', vs, he, ha, hv, hvv, hlll⟩ := init_ok hN hb h
  obtain rfl : aux = aux' := by injection he
  have e := lll_id hN.lstsq hb hs hc hlll
  injection e with e
  obtain ⟨e1, e2⟩ := Prod.mk.inj e
  obtain ⟨-, -, -, h4, h5⟩ := C72_voronoi hN.lsq (hN.sort _) ha.li hv
  have : aux.voronoi = vs := by rw [hvv, e2]; simp
  rw [this]
  rw [e1] at h4 h5
  exact ⟨h5, h4⟩

theorem enough_closure {basis : Fin D → E} (hb : LinearIndependent ℝ basis) {S : Set (Fin D → ℤ)} (hS : Enough basis S) : AddSubgroup.closure S = ⊤ := by
  rw [eq_top_iff]
  intro u _
  refine descent hb (fun u => u ∈ AddSubgroup.closure S) (fun u ih => ?_) u
  by_cases hu : u = 0
  · rw [hu]; exact zero_mem _
  · rcases hS u hu with hm | hsp
    · exact AddSubgroup.subset_closure hm
    · obtain ⟨w, w', e, -, -, l1, l2, -⟩ := hsp.lt hb
      rw [e]
      exact add_mem (ih w l1) (ih w' l2)

theorem voronoi_closure {N : Num E D} (hN : NumOk N) {basis : Fin D → E} (hb : LinearIndependent ℝ basis) {fuel : ℕ} {vs : List (Fin D → ℤ)}
    (h : voronoi N.lsq (N.sort basis) basis false 1e-9 fuel = some vs) : AddSubgroup.closure {v | v ∈ vs} = ⊤ := by
  unfold voronoi at h
  obtain ⟨V, hV, rfl⟩ := Option.map_eq_some_iff.mp h
  have hverts := verts hN.lsq (hN.sort basis) hb hV
  exact enough_closure hb (enough_verts hb hverts)

/-- **C102**: for all lattices, the vectors along which the flood fill moves generate all the lattice vectors. -/
theorem C102_generate {N : Num E D} (hN : NumOk N) {prim : Fin D → E} (hb : LinearIndependent ℝ prim) {fuel fuel' : ℕ} {aux : Aux E D}
    (h : initAux N prim fuel fuel' = some (.ok aux)) : AddSubgroup.closure {v | v ∈ aux.voronoi} = ⊤ := by
  obtain ⟨aux', vs, he, ha, hv, hvv, hlll⟩ := init_ok hN hb h
  obtain rfl : aux = aux' := by injection he
  rw [eq_top_iff]
  intro t _
  obtain ⟨z, rfl⟩ := vecMul_surj ha t
  have hz : z ∈ AddSubgroup.closure {v | v ∈ vs} := by rw [voronoi_closure hN ha.li hv]; trivial
  induction hz using AddSubgroup.closure_induction with
  | mem x hx => exact AddSubgroup.subset_closure (by rw [hvv]; exact List.mem_map.mpr ⟨x, hx, rfl⟩)
  | zero => rw [Matrix.zero_vecMul]; exact zero_mem _
  | add x y _ _ h1 h2 => rw [Matrix.add_vecMul]; exact add_mem (h1 trivial) (h2 trivial)
  | neg x _ h1 => rw [Matrix.neg_vecMul]; exact neg_mem (h1 trivial)

end Kwant.Lat
