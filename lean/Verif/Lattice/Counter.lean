import Verif.Lattice.Shape

/-!
C102: a lattice for which `Polyatomic.shape` misses sites: `self.voronoi = ta.dot(lll.voronoi(self.reduced_vecs), self.transf)` (lattice.py l.123, l.454) multiplies
with `transf` where the change of basis is `transf.T` (as in `n_closest`, l.492).  Primitive vectors (1, 0), (2, 1) (a square lattice), shape: the segment
`y = 0, 0 <= x <= 5`, start at the origin.
-/

set_option linter.unusedSectionVars false

namespace Kwant.Lat
open Kwant.LLL Kwant.Cvp Kwant.Voronoi InnerProductSpace

/-- Routines with the required contracts exist. -/
theorem exists_num {E : Type*} [NormedAddCommGroup E] [InnerProductSpace ℝ E] (D : ℕ) : ∃ N : Num E D, NumOk N := by
  classical
  have key : ∀ a b : Fin D → E, ∃ y : Matrix (Fin D) (Fin D) ℝ,
      (∃ x : Matrix (Fin D) (Fin D) ℝ, ∀ k, b k = ∑ j, x j k • a j) → ∀ k, b k = ∑ j, y j k • a j := by
    intro a b
    by_cases h : ∃ x : Matrix (Fin D) (Fin D) ℝ, ∀ k, b k = ∑ j, x j k • a j
    · obtain ⟨x, hx⟩ := h; exact ⟨x, fun _ => hx⟩
    · exact ⟨0, fun h' => absurd h' h⟩
  choose f hf using key
  obtain ⟨lsq, hl⟩ := exists_lsq (E := E) D
  choose sort hs using fun basis : Fin D → E => exists_sort basis
  exact ⟨⟨f, lsq, sort⟩, ⟨hf, hl, hs⟩⟩

/-- The plane. -/
abbrev E2 := EuclideanSpace ℝ (Fin 2)

/-- Primitive vectors of a square lattice. -/
noncomputable def slant : Fin 2 → E2 := ![!₂[1, 0], !₂[2, 1]]

theorem slant_li : LinearIndependent ℝ slant := by
  rw [slant, LinearIndependent.pair_iff]
  intro s t h
  have h0 := congrArg (fun v : E2 => v 0) h
  have h1 := congrArg (fun v : E2 => v 1) h
  simp at h0 h1
  subst h1
  simpa using h0

theorem rows_slant0 : rows slant 0 = !₂[1, 0] := by simp [rows, slant]
theorem rows_slant1 : rows slant 1 = !₂[2, 1] := by simp [rows, slant]

theorem gsCoef_slant : gsCoef (!₂[2, 1] : E2) (!₂[1, 0] : E2) = 2 := by
  unfold gsCoef
  rw [EuclideanSpace.norm_sq_eq]
  simp [PiLp.inner_apply, Fin.sum_univ_two]

theorem init_slant : (initSt 2 (rows slant)).vecs 0 = !₂[1, 0] ∧ (initSt 2 (rows slant)).vecs 1 = !₂[0, 1] ∧
    (initSt 2 (rows slant)).star 0 = !₂[1, 0] ∧ (initSt 2 (rows slant)).star 1 = !₂[0, 1] := by
  have e : (!₂[2, 1] : E2) - (2 : ℝ) • !₂[1, 0] = !₂[0, 1] := by
    ext i; fin_cases i <;> simp
  have h2 : npRound 2 = 2 := npRound_int 2
  simp only [initSt, List.range_succ, List.range_zero, List.nil_append, List.foldl_append, List.foldl_cons, List.foldl_nil, initRow, llReduce, List.reverse_nil,
    initInner, List.reverse_append, List.reverse_cons, redStep, Function.update_self, rows_slant0, rows_slant1, gsCoef_slant, h2]
  refine ⟨?_, ?_, ?_, ?_⟩
  · rw [Function.update_of_ne (by norm_num), rows_slant0]
  · push_cast; exact e
  · rw [Function.update_of_ne (by norm_num), rows_slant0]
  · exact e

theorem lll_slant {N : Num E2 2} (hN : NumOk N) {fuel : ℕ} {v : Fin 2 → E2} {coefs : Matrix (Fin 2) (Fin 2) ℤ}
    (h : lll N.lstsq slant 1.34 fuel = some (.ok (v, coefs))) : v = ![!₂[1, 0], !₂[0, 1]] ∧ coefs = !![1, -2; 0, 1] := by
  obtain ⟨v', coefs', he, -, -, h3, -, -⟩ := C70_lll hN.lstsq slant_li h
  injection he with he
  obtain ⟨rfl, rfl⟩ := Prod.mk.inj he
  obtain ⟨i1, i2, i3, i4⟩ := init_slant
  have hlov : lovasz 1.34 0 (initSt 2 (rows slant)) := by
    unfold lovasz
    rw [i3, i4, EuclideanSpace.norm_sq_eq, EuclideanSpace.norm_sq_eq]
    simp [Fin.sum_univ_two]
    norm_num
  have hv : v = ![!₂[1, 0], !₂[0, 1]] := by
    unfold lll at h
    obtain ⟨s, h1, h2⟩ := Option.map_eq_some_iff.mp h
    have hse : s = initSt 2 (rows slant) := by
      have gen : ∀ fuel i, mainLoop 2 1.34 fuel (i, initSt 2 (rows slant)) = some s → s = initSt 2 (rows slant) := by
        intro fuel
        induction fuel with
        | zero => intro i hi; cases hi
        | succ fuel ih =>
          intro i hi
          unfold mainLoop at hi
          split at hi
          · next hlt =>
            have hlt' : i + 1 < 2 := hlt
            obtain rfl : i = 0 := by omega
            have : mainStep 2 1.34 (0, initSt 2 (rows slant)) = (0 + 1, initSt 2 (rows slant)) := by
              unfold mainStep
              exact if_pos hlov
            rw [this] at hi
            exact ih _ hi
          · exact (Option.some.inj hi).symm
      exact gen fuel 0 h1
    subst hse
    unfold finish at h2
    split at h2
    · cases h2
    · split at h2
      · cases h2
      · injection h2 with h2
        rw [← (Prod.mk.inj h2).1]
        funext k
        fin_cases k
        · exact i1
        · exact i2
  refine ⟨hv, ?_⟩
  have e : ∀ k x, v k x = ∑ j, (coefs j k : ℝ) * slant j x := by
    intro k x
    rw [h3 k]
    simp [Fin.sum_univ_two]
  have a0 := e 0 0
  have a1 := e 0 1
  have b0 := e 1 0
  have b1 := e 1 1
  rw [hv] at a0 a1 b0 b1
  simp [Fin.sum_univ_two, slant] at a0 a1 b0 b1
  ext i j
  fin_cases i <;> fin_cases j <;> simp
  · have : (coefs 0 0 : ℝ) = 1 := by rw [← a1] at a0; linarith
    exact_mod_cast this
  · have : (coefs 0 1 : ℝ) = -2 := by rw [← b1] at b0; linarith
    exact_mod_cast this
  · exact_mod_cast a1.symm
  · exact_mod_cast b1.symm

/-- The lattice as a `Monatomic` family. -/
noncomputable def slantLat : Poly E2 2 Unit := ⟨slant, [()], fun _ => 0⟩

open Classical in
/-- The shape: a segment of the x axis. -/
noncomputable def segment (p : E2) : Bool := decide ((p 1 : ℝ) = (0 : ℝ) ∧ (0 : ℝ) ≤ (p 0 : ℝ) ∧ (p 0 : ℝ) ≤ (5 : ℝ))

theorem pos_slant (t : Fin 2 → ℤ) : (tagPos slant 0 t 0 : ℝ) = (t 0 : ℝ) + 2 * (t 1 : ℝ) ∧ (tagPos slant 0 t 1 : ℝ) = (t 1 : ℝ) := by
  unfold tagPos latPt
  constructor
  · simp [Fin.sum_univ_two, slant]; ring
  · simp [Fin.sum_univ_two, slant]

theorem segment_iff (t : Fin 2 → ℤ) : segment (tagPos slant 0 t) = true ↔ t 1 = 0 ∧ 0 ≤ t 0 ∧ t 0 ≤ 5 := by
  unfold segment
  rw [decide_eq_true_iff, (pos_slant t).1, (pos_slant t).2]
  constructor
  · rintro ⟨h1, h2, h3⟩
    have h1' : t 1 = 0 := Int.cast_injective (α := ℝ) (by rw [Int.cast_zero]; exact h1)
    rw [h1', Int.cast_zero, mul_zero, add_zero] at h2 h3
    exact ⟨h1', Int.cast_nonneg_iff.mp h2, (Int.cast_le (R := ℝ)).mp (by push_cast; exact h3)⟩
  · rintro ⟨h1, h2, h3⟩
    rw [h1, Int.cast_zero, mul_zero, add_zero]
    have h4 := (Int.cast_le (R := ℝ)).mpr h3
    push_cast at h4
    exact ⟨rfl, Int.cast_nonneg_iff.mpr h2, h4⟩

theorem norm_square (z : Fin 2 → ℤ) : ‖latPt (![!₂[1, 0], !₂[0, 1]] : Fin 2 → E2) z‖ ^ 2 = (z 0 : ℝ) ^ 2 + (z 1 : ℝ) ^ 2 := by
  rw [EuclideanSpace.norm_sq_eq]
  unfold latPt
  simp [Fin.sum_univ_two]

theorem norm_slant (z : Fin 2 → ℤ) (x : E2) : ‖x - latPt slant z‖ ^ 2 = (x 0 - (z 0 + 2 * z 1)) ^ 2 + (x 1 - z 1) ^ 2 := by
  rw [EuclideanSpace.norm_sq_eq]
  unfold latPt
  simp [Fin.sum_univ_two, slant]
  ring

/-- The neighbors (0, 0) and (1, 0) of the lattice share a face of their Voronoi cells. -/
theorem relevant_slant : Relevant slant ![1, 0] := by
  refine ⟨fun h => by simpa using congrFun h 0, !₂[1 / 2, 0], ?_, fun z h0 h1 => ?_⟩
  · rw [← sq_eq_sq₀ (norm_nonneg _) (norm_nonneg _), norm_slant, EuclideanSpace.norm_sq_eq]
    simp [Fin.sum_univ_two]
    norm_num
  · rw [← sq_lt_sq₀ (norm_nonneg _) (norm_nonneg _), norm_slant, EuclideanSpace.norm_sq_eq]
    simp only [Fin.sum_univ_two]
    show ‖(1 / 2 : ℝ)‖ ^ 2 + ‖(0 : ℝ)‖ ^ 2 < (1 / 2 - ((z 0 : ℝ) + 2 * z 1)) ^ 2 + (0 - (z 1 : ℝ)) ^ 2
    rw [norm_zero, Real.norm_eq_abs, sq_abs]
    by_cases hz : z 1 = 0
    · rw [hz]
      have hz0 : z 0 ≠ 0 := fun h => h0 (by funext i; fin_cases i <;> simp [h, hz])
      have hz1 : z 0 ≠ 1 := fun h => h1 (by funext i; fin_cases i <;> simp [h, hz])
      rcases lt_or_gt_of_ne hz0 with h | h
      · have : (z 0 : ℝ) ≤ -1 := by exact_mod_cast Int.le_sub_one_of_lt h
        push_cast; nlinarith
      · have : (2 : ℝ) ≤ z 0 := by exact_mod_cast (show 2 ≤ z 0 by omega)
        push_cast; nlinarith
    · have : (1 : ℝ) ≤ (z 1 : ℝ) ^ 2 := by
        have : 1 ≤ z 1 ^ 2 := by
          have := Int.one_le_abs hz
          nlinarith [sq_abs (z 1)]
        exact_mod_cast this
      nlinarith [sq_nonneg (1 / 2 - ((z 0 : ℝ) + 2 * z 1))]

theorem slant_deltas {N : Num E2 2} (hN : NumOk N) {fuel fuel' : ℕ} {aux : Aux E2 2} (ha : initAux N slant fuel fuel' = some (.ok aux)) {d : Fin 2 → ℤ}
    (hd : d ∈ aux.voronoi) : d 1 ≠ 0 := by
  obtain ⟨aux', vs, he, hao, hv, hvv, hlll⟩ := init_ok hN slant_li ha
  obtain rfl : aux = aux' := by injection he
  obtain ⟨h1, h2⟩ := lll_slant hN hlll
  obtain ⟨-, -, hmin, -⟩ := C72_voronoi hN.lsq (hN.sort _) hao.li hv
  rw [hvv] at hd
  obtain ⟨r, hr, rfl⟩ := List.mem_map.mp hd
  obtain ⟨hr0, hm⟩ := hmin r hr
  rw [h2]
  intro hz
  have hz' : -2 * r 0 + r 1 = 0 := by
    have : Matrix.vecMul r !![1, -2; 0, 1] 1 = -2 * r 0 + r 1 := by
      simp [Matrix.vecMul, dotProduct, Fin.sum_univ_two]; ring
    rw [← this]; exact hz
  have hle := hm ![r 0, 0] (fun i => by
    fin_cases i
    · simp
    · show (0 : ℤ) % 2 = r 1 % 2; omega)
  rw [h1] at hle
  have hle2 := pow_le_pow_left₀ (norm_nonneg _) hle 2
  rw [norm_square, norm_square] at hle2
  have e1 : (r 1 : ℝ) = 2 * r 0 := by exact_mod_cast (show r 1 = 2 * r 0 by omega)
  simp [e1] at hle2
  have h00 : r 0 = 0 := hle2
  exact hr0 (by funext i; fin_cases i <;> simp <;> omega)

/-- **C102**, counterexample: whatever the routines of numpy do within their contracts, the flood fill of the segment from the origin ends and yields only the
site (0, 0), although the site (1, 0) is in the shape, in a Voronoi cell that has a face in common with the one of (0, 0), and at distance 1 from it. -/
theorem C102_counterexample {N : Num E2 2} (hN : NumOk N) {fuel fuel' fuel'' : ℕ} {aux : Aux E2 2} (ha : initAux N slant fuel fuel' = some (.ok aux))
    {starts : Finset (Fin 2 → ℤ)} (hst : startTags N aux slantLat 0 fuel'' = some starts) {ordT ordS}
    (ho : Shape.OrdOk (shapeInp slantLat aux (fun _ => fdTag (noFam 2) false) segment starts ordT ordS)) :
    (∃ n out, Shape.run (shapeInp slantLat aux (fun _ => fdTag (noFam 2) false) segment starts ordT ordS) n = .ok (some out)) ∧
    (∀ n out, Shape.run (shapeInp slantLat aux (fun _ => fdTag (noFam 2) false) segment starts ordT ordS) n = .ok (some out) → ∀ s, s ∈ out ↔ s = ((), 0)) ∧
    segment (tagPos slant 0 ![1, 0]) = true ∧ Relevant slant ![1, 0] ∧ ‖tagPos slant 0 ![1, 0] - tagPos slant 0 0‖ = 1 := by
  obtain ⟨aux', vs, he, hao, -⟩ := init_ok hN slant_li ha
  obtain rfl : aux = aux' := by injection he
  -- the start tag
  have h0 : starts = {0} := by
    obtain ⟨l, hl, rfl⟩ := Option.map_eq_some_iff.mp hst
    have hmem := mapAll_mem hl
    have hz : tagPos slant 0 0 = 0 := by unfold tagPos; rw [latPt_zero, add_zero]
    have hone : ∀ t, t ∈ l → t = 0 := by
      intro t ht
      obtain ⟨lat, -, hc⟩ := (hmem t).mp ht
      refine C103_roundtrip hN slant_li hao 0 0 (fuel := fuel'') ?_
      rw [hz]; exact hc
    have hlen : l.length = 1 := (mapAll_some hl).length_eq.symm
    obtain ⟨c, rfl⟩ := List.length_eq_one_iff.mp hlen
    rw [hone c (by simp)]
    rfl
  set I := shapeInp slantLat aux (fun _ => fdTag (noFam 2) false) segment starts ordT ordS with hI
  have hneg : Shape.NegOk I := fun d' hd' => aux_neg hN slant_li ha hd'
  have hfd : Shape.FdOk I (fdTag (noFam 2) false) := ⟨fun _ _ => rfl, fdTag_coset (noFam 2) false⟩
  have hid : ∀ t, fdTag (noFam 2) false t = t := fdTag_noFam 2 false
  have hseg : ∀ t : Fin 2 → ℤ, Shape.Live I t → t 1 = 0 := by
    rintro t ⟨lat, -, hi⟩
    exact ((segment_iff t).mp hi).1
  have hw : ∀ n t, Shape.Within I (fdTag (noFam 2) false) n t → t = 0 := by
    intro n t h
    induction h with
    | start h1 h2 =>
      have : _ ∈ starts := h1
      rw [h0] at this
      exact (hid _).trans (Finset.mem_singleton.mp this)
    | @step n t d h1 h2 h3 ih =>
      exfalso
      have hlv : t 1 + d 1 = 0 := (congrFun (hid (t + d)) (1 : Fin 2)).symm.trans (hseg _ h3)
      rw [ih] at hlv
      exact slant_deltas hN ha h2 (by simpa using hlv)
  have hs0 : segment (tagPos slant 0 0) = true := (segment_iff 0).mpr ⟨rfl, le_refl _, by norm_num⟩
  have hw0 : Shape.Within I (fdTag (noFam 2) false) 0 0 := by
    have h1 : (0 : Fin 2 → ℤ) ∈ I.starts := by show _ ∈ starts; rw [h0]; exact Finset.mem_singleton_self _
    have e : fdTag (noFam 2) false (0 : Fin 2 → ℤ) = (0 : Fin 2 → ℤ) := hid 0
    have hl : Shape.Live I (0 : Fin 2 → ℤ) := ⟨(), List.mem_singleton.mpr rfl, hs0⟩
    have := Shape.Within.start (I := I) (τ := fdTag (noFam 2) false) (n := 0) h1 (e.symm ▸ hl)
    exact e ▸ this
  have hsites : Shape.startSites I ≠ [] := by
    intro hc
    have := (Shape.start_full ho hfd () 0).mpr ⟨List.mem_singleton.mpr rfl, hs0, hw0⟩
    rw [hc] at this
    cases this
  refine ⟨(Shape.C102_terminates ho hfd hneg hsites).mpr ?_, ?_, (segment_iff _).mpr ⟨rfl, by norm_num, by norm_num⟩, relevant_slant, ?_⟩
  · exact (Set.finite_singleton (0 : Fin 2 → ℤ)).subset fun t ⟨n, hn⟩ => hw n t hn
  · rintro n out h ⟨lat, t⟩
    rw [Shape.C102_shape ho hfd hneg h lat t]
    constructor
    · rintro ⟨-, -, m, hm⟩
      rw [hw m t hm]
    · intro e
      obtain ⟨rfl, rfl⟩ := Prod.mk.inj e
      exact ⟨List.mem_singleton.mpr rfl, hs0, 0, hw0⟩
  · rw [← sq_eq_sq₀ (norm_nonneg _) zero_le_one, EuclideanSpace.norm_sq_eq]
    simp only [Fin.sum_univ_two]
    have e : ∀ i, (tagPos slant 0 ![1, 0] - tagPos slant 0 0) i = tagPos slant 0 ![1, 0] i - tagPos slant 0 0 i := fun i => rfl
    rw [e, e, (pos_slant _).1, (pos_slant _).1, (pos_slant _).2, (pos_slant _).2]
    simp

/-- The hypotheses of the counterexample (and with them those of `C102_lattice`) are satisfied. -/
theorem counter_hyps : ∃ (N : Num E2 2) (fuel fuel' fuel'' : ℕ) (aux : Aux E2 2) (starts : Finset (Fin 2 → ℤ)), NumOk N ∧
    initAux N slant fuel fuel' = some (.ok aux) ∧ startTags N aux slantLat 0 fuel'' = some starts ∧
    Shape.OrdOk (shapeInp slantLat aux (fun _ => fdTag (noFam 2) false) segment starts Finset.toList Finset.toList) := by
  obtain ⟨N, hN⟩ := exists_num (E := E2) 2
  obtain ⟨fuel, fuel', aux, ha, hao⟩ := C103_init hN slant_li
  obtain ⟨fuel'', r, hr⟩ := (C103_terminates hN hao (by norm_num) (slantLat.offset ()) 0 le_rfl 0).2
  refine ⟨N, fuel, fuel', fuel'', aux, {r}, hN, ha, ?_, ⟨fun s t => Finset.mem_toList, fun s => Finset.nodup_toList s, fun s t => Finset.mem_toList,
    fun s => Finset.nodup_toList s⟩⟩
  unfold startTags
  show Option.map _ (mapAll _ [()]) = _
  unfold mapAll
  simp only [hr]
  rfl

end Kwant.Lat
