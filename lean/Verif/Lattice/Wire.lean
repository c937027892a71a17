import Verif.Lattice.Shape

/-!
C105: kwant/lattice.py, `Polyatomic.wire` (l.215-264), and shapes that have the symmetry.
-/

set_option linter.unusedSectionVars false

namespace Kwant.Shape
variable {T L : Type*} [AddCommGroup T] [DecidableEq T] [DecidableEq L]

/-- The flood fill without symmetry, from the same start tags. -/
def unfolded (I : Inp T L) : Inp T L := { I with fd := fun _ t => t }

/-- **C105**: if the shape has the symmetry, a tag of the fundamental domain is reached by the flood fill if and only if the flood fill without symmetry reaches a
tag equivalent to it (in the same number of rounds). -/
theorem C105_symmetric {I : Inp T L} {τ : T → T} (hfd : FdOk I τ) (hsym : ∀ lat t, I.inside lat (τ t) = I.inside lat t) (n : ℕ) (t : T) :
    Within I τ n t ↔ ∃ s, τ s = t ∧ Within (unfolded I) id n s := by
  have hlive : ∀ t, Live I (τ t) ↔ Live (unfolded I) t := fun t => by
    unfold Live
    show (∃ lat ∈ I.lats, I.inside lat (τ t) = true) ↔ ∃ lat ∈ I.lats, I.inside lat t = true
    simp only [hsym]
  constructor
  · intro h
    induction h with
    | @start n t h1 h2 => exact ⟨t, rfl, .start (I := unfolded I) (τ := id) h1 ((hlive t).mp h2)⟩
    | @step n t d h1 h2 h3 ih =>
      obtain ⟨s, rfl, hs⟩ := ih
      rw [hfd.coset] at h3 ⊢
      exact ⟨s + d, rfl, .step (I := unfolded I) (τ := id) hs h2 ((hlive _).mp h3)⟩
  · rintro ⟨s, rfl, h⟩
    induction h with
    | @start n t h1 h2 => exact .start h1 ((hlive t).mpr h2)
    | @step n t d h1 h2 h3 ih =>
      have e : τ (τ t + d) = τ (t + d) := hfd.coset t d
      have := Within.step ih h2 (by rw [e]; exact (hlive _).mpr h3)
      rw [e] at this
      exact this

end Kwant.Shape

namespace Kwant.Lat
open Kwant.LLL Kwant.Cvp Kwant.Voronoi

variable {E : Type*} [NormedAddCommGroup E] [InnerProductSpace ℝ E] {L : Type*} [DecidableEq L]

local notation "⟪" x ", " y "⟫" => inner ℝ x y

open Classical in
/-- `wire_shape(pos)` (l.254-257), with `direction = period / norm(period)` (l.251). -/
noncomputable def wireShape (center period : E) (radius : ℝ) (pos : E) : Bool :=
  let direction := ‖period‖⁻¹ • period
  let relPos := pos - center
  let projection := relPos - ⟪direction, relPos⟫ • direction
  decide (⟪projection, projection⟫ ≤ radius ^ 2)

theorem wireProj (period v : E) : ⟪‖period‖⁻¹ • period, v⟫ • (‖period‖⁻¹ • period) = (Submodule.span ℝ {period}).starProjection v := by
  rw [Submodule.starProjection_singleton, smul_smul, real_inner_smul_left]
  congr 1
  simp only [RCLike.ofReal_real_eq_id, id_eq]
  ring

/-- **C105**: the shape of `wire(center, radius)` is the set of all the points whose distance from the axis through `center` along the period is at most
`radius`. -/
theorem C105_cylinder (center period : E) {radius : ℝ} (hr : 0 ≤ radius) (pos : E) :
    wireShape center period radius pos = true ↔ ∃ x : ℝ, ‖pos - (center + x • period)‖ ≤ radius := by
  unfold wireShape
  simp only [decide_eq_true_eq]
  rw [wireProj, real_inner_self_eq_norm_sq, sq_le_sq₀ (norm_nonneg _) hr]
  set K := Submodule.span ℝ {period} with hK
  constructor
  · intro h
    obtain ⟨x, hx⟩ := Submodule.mem_span_singleton.mp (Submodule.starProjection_apply_mem K (pos - center))
    refine ⟨x, ?_⟩
    rw [hx, ← sub_sub]
    exact h
  · rintro ⟨x, hx⟩
    refine le_trans ?_ hx
    have h2 : x • period ∈ K := Submodule.mem_span_singleton.mpr ⟨x, rfl⟩
    have h3 := Submodule.sub_starProjection_mem_orthogonal (K := K) (pos - center)
    have e : pos - (center + x • period) = (pos - center - K.starProjection (pos - center)) + (K.starProjection (pos - center) - x • period) := by abel
    have h4 : ⟪pos - center - K.starProjection (pos - center), K.starProjection (pos - center) - x • period⟫ = 0 :=
      Submodule.inner_left_of_mem_orthogonal (K.sub_mem (Submodule.starProjection_apply_mem K _) h2) h3
    rw [e, ← sq_le_sq₀ (norm_nonneg _) (norm_nonneg _), norm_add_sq_real, h4]
    nlinarith [sq_nonneg ‖K.starProjection (pos - center) - x • period‖]

/-- **C105**: the wire is invariant under the symmetry. -/
theorem C105_invariant (center period : E) (radius : ℝ) (pos : E) (x : ℝ) : wireShape center period radius (pos + x • period) = wireShape center period radius pos := by
  unfold wireShape
  simp only
  rw [wireProj, wireProj]
  set K := Submodule.span ℝ {period} with hK
  have h2 : x • period ∈ K := Submodule.mem_span_singleton.mpr ⟨x, rfl⟩
  have e : pos + x • period - center - K.starProjection (pos + x • period - center) = pos - center - K.starProjection (pos - center) := by
    have : pos + x • period - center = (pos - center) + x • period := by abel
    rw [this, map_add, Submodule.starProjection_eq_self_iff.mpr h2]
    abel
  rw [e]

/-- **C105**: `wire(center, radius)(sym)`, for a symmetry with one period that is commensurate with the lattice: when the generator is exhausted, it has yielded
exactly the sites of the fundamental domain within the cylinder for which an equivalent site is reached by the flood fill of the whole cylinder, without any
symmetry. -/
theorem C105_wire {d : FamData 1} {rev : Bool} {N : Num E d.dim} (hN : NumOk N) {P : Poly E d.dim L} (hb : LinearIndependent ℝ P.prim)
    {fuel fuel' n : ℕ} {aux : Aux E d.dim} (ha : initAux N P.prim fuel fuel' = some (.ok aux)) {center period : E} {radius : ℝ} (hr : 0 ≤ radius)
    (hper : latPt P.prim (d.mPart.mulVec fun _ => 1) = period) {starts : Finset (Fin d.dim → ℤ)} {ordT ordS}
    (ho : Shape.OrdOk (shapeInp P aux (fun _ => fdTag d rev) (wireShape center period radius) starts ordT ordS)) {out : List (L × (Fin d.dim → ℤ))}
    (h : Shape.run (shapeInp P aux (fun _ => fdTag d rev) (wireShape center period radius) starts ordT ordS) n = .ok (some out)) (lat : L) (t : Fin d.dim → ℤ) :
    (lat, t) ∈ out ↔ lat ∈ P.lats ∧ (∃ x : ℝ, ‖tagPos P.prim (P.offset lat) t - (center + x • period)‖ ≤ radius) ∧
      ∃ s, fdTag d rev s = t ∧ Shape.Reachable (shapeInp P aux (fun _ => id) (wireShape center period radius) starts ordT ordS) id s := by
  have hsym : ∀ lat t, (shapeInp P aux (fun _ => fdTag d rev) (wireShape center period radius) starts ordT ordS).inside lat (fdTag d rev t) =
      (shapeInp P aux (fun _ => fdTag d rev) (wireShape center period radius) starts ordT ordS).inside lat t := by
    intro lat t
    obtain ⟨g, hg⟩ := fdTag_diff d rev t
    show wireShape center period radius (tagPos P.prim (P.offset lat) (fdTag d rev t)) = wireShape center period radius (tagPos P.prim (P.offset lat) t)
    have e : tagPos P.prim (P.offset lat) (fdTag d rev t) = tagPos P.prim (P.offset lat) t + (g 0 : ℝ) • period := by
      have e1 : d.mPart.mulVec g = g 0 • d.mPart.mulVec (fun _ => 1) := by
        funext i
        simp [Matrix.mulVec, dotProduct, mul_comm]
      have e2 : latPt P.prim (g 0 • d.mPart.mulVec (fun _ => 1)) = (g 0 : ℝ) • period := by
        rw [← hper]
        unfold latPt
        rw [Finset.smul_sum]
        refine Finset.sum_congr rfl fun j _ => ?_
        rw [Pi.smul_apply, smul_eq_mul, Int.cast_mul, mul_smul]
      unfold tagPos
      rw [hg, latPt_add, e1, e2]
      abel
    rw [e, C105_invariant]
  rw [Shape.C102_shape ho shape_fdOk (fun d' hd' => aux_neg hN hb ha hd') h lat t]
  have hin : (shapeInp P aux (fun _ => fdTag d rev) (wireShape center period radius) starts ordT ordS).inside lat t = true ↔
      ∃ x : ℝ, ‖tagPos P.prim (P.offset lat) t - (center + x • period)‖ ≤ radius := C105_cylinder center period hr _
  rw [hin]
  refine and_congr_right fun _ => and_congr_right fun _ => ?_
  constructor
  · rintro ⟨m, hm⟩
    obtain ⟨s, h1, h2⟩ := (Shape.C105_symmetric shape_fdOk hsym m t).mp hm
    exact ⟨s, h1, m, h2⟩
  · rintro ⟨s, h1, m, h2⟩
    exact ⟨m, (Shape.C105_symmetric shape_fdOk hsym m t).mpr ⟨s, h1, h2⟩⟩

end Kwant.Lat
