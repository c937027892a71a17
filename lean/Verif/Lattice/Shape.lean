import Verif.Lattice.Deltas
import Mathlib.Analysis.InnerProductSpace.PiL2

/-!
C102: `Polyatomic.shape` for a lattice and a translational symmetry; an example where it misses sites.
-/

set_option linter.unusedSectionVars false

namespace Kwant.Lat
open Kwant.LLL Kwant.Cvp Kwant.Voronoi InnerProductSpace

section
variable {E : Type*} [NormedAddCommGroup E] [InnerProductSpace ℝ E] {L : Type*} [DecidableEq L]

theorem shape_fdOk {k : ℕ} {d : FamData k} {rev : Bool} {P : Poly E d.dim L} {aux : Aux E d.dim} {f : E → Bool} {starts : Finset (Fin d.dim → ℤ)}
    {ordT : Finset (Fin d.dim → ℤ) → List (Fin d.dim → ℤ)} {ordS : Finset (L × (Fin d.dim → ℤ)) → List (L × (Fin d.dim → ℤ))} :
    Shape.FdOk (shapeInp P aux (fun _ => fdTag d rev) f starts ordT ordS) (fdTag d rev) := ⟨fun _ _ => rfl, fdTag_coset d rev⟩

/-- **C102** for a lattice and a translational symmetry whose fundamental domain is the same for all the sublattices: when `shape(f, start)(symmetry)` is exhausted,
it has yielded exactly the sites in the shape and in the fundamental domain whose tag is reachable from the tags closest to `start`, in steps along the vectors
`voronoi`, through tags with a site in the shape.  The start tags are those of the sites closest to `start` of each sublattice. -/
theorem C102_lattice {k : ℕ} {d : FamData k} {rev : Bool} {N : Num E d.dim} (hN : NumOk N) {P : Poly E d.dim L} (hb : LinearIndependent ℝ P.prim)
    {fuel fuel' fuel'' n : ℕ} {aux : Aux E d.dim} (ha : initAux N P.prim fuel fuel' = some (.ok aux)) {f : E → Bool} {start : E}
    {starts : Finset (Fin d.dim → ℤ)} (hst : startTags N aux P start fuel'' = some starts) {ordT ordS}
    (ho : Shape.OrdOk (shapeInp P aux (fun _ => fdTag d rev) f starts ordT ordS)) {out : List (L × (Fin d.dim → ℤ))}
    (h : Shape.run (shapeInp P aux (fun _ => fdTag d rev) f starts ordT ordS) n = .ok (some out)) :
    (∀ t, t ∈ starts → ∃ lat ∈ P.lats, ∀ s, ‖tagPos P.prim (P.offset lat) t - start‖ ≤ ‖tagPos P.prim (P.offset lat) s - start‖) ∧
    (∀ lat ∈ P.lats, ∃ t ∈ starts, ∀ s, ‖tagPos P.prim (P.offset lat) t - start‖ ≤ ‖tagPos P.prim (P.offset lat) s - start‖) ∧
    ∀ lat t, (lat, t) ∈ out ↔ lat ∈ P.lats ∧ f (tagPos P.prim (P.offset lat) t) = true ∧
      Shape.Reachable (shapeInp P aux (fun _ => fdTag d rev) f starts ordT ordS) (fdTag d rev) t := by
  obtain ⟨aux', vs, he, hao, -⟩ := init_ok hN hb ha
  obtain rfl : aux = aux' := by injection he
  obtain ⟨l, hl, rfl⟩ := Option.map_eq_some_iff.mp hst
  refine ⟨fun t ht => ?_, fun lat hlat => ?_, fun lat t => Shape.C102_shape ho shape_fdOk (fun d' hd' => aux_neg hN hb ha hd') h lat t⟩
  · obtain ⟨lat, hlat, hc⟩ := (mapAll_mem hl t).mp (List.mem_toFinset.mp ht)
    exact ⟨lat, hlat, fun s => C103_closest hN hao _ _ hc s⟩
  · obtain ⟨i, hi, rfl⟩ := List.getElem_of_mem hlat
    have hf := mapAll_some hl
    have hlen := hf.length_eq
    have := List.forall₂_iff_get.mp hf |>.2 i hi (by omega)
    simp only [List.get_eq_getElem] at this
    exact ⟨l[i]'(by omega), List.mem_toFinset.mpr (List.getElem_mem _), fun s => C103_closest hN hao _ _ this s⟩

/-- **C102**: every yielded site is in the fundamental domain of the symmetry. -/
theorem C102_fd {k : ℕ} {d : FamData k} {rev : Bool} {I : Shape.Inp (Fin d.dim → ℤ) L} (hI : Shape.FdOk I (fdTag d rev)) {t : Fin d.dim → ℤ}
    (h : Shape.Reachable I (fdTag d rev) t) : fdTag d rev t = t := by
  obtain ⟨n, hn⟩ := h
  exact hn.fixed hI

/-- **C102**: if the shape contains everything, all the sites of the fundamental domain are yielded after some number of rounds, for all lattices. -/
theorem C102_everything {k : ℕ} {d : FamData k} {rev : Bool} {N : Num E d.dim} (hN : NumOk N) {P : Poly E d.dim L} (hb : LinearIndependent ℝ P.prim)
    {fuel fuel' : ℕ} {aux : Aux E d.dim} (ha : initAux N P.prim fuel fuel' = some (.ok aux)) {f : E → Bool} (hf : ∀ x, f x = true)
    {starts : Finset (Fin d.dim → ℤ)} (hst : starts.Nonempty) {ordT ordS}
    (ho : Shape.OrdOk (shapeInp P aux (fun _ => fdTag d rev) f starts ordT ordS)) {lat : L} (hlat : lat ∈ P.lats) {t : Fin d.dim → ℤ} (ht : fdTag d rev t = t) :
    ∃ n, (lat, t) ∈ Shape.yielded (shapeInp P aux (fun _ => fdTag d rev) f starts ordT ordS) n
      (Shape.start (shapeInp P aux (fun _ => fdTag d rev) f starts ordT ordS)) := by
  set I := shapeInp P aux (fun _ => fdTag d rev) f starts ordT ordS with hI
  have hfd : Shape.FdOk I (fdTag d rev) := shape_fdOk
  have hneg : Shape.NegOk I := fun d' hd' => aux_neg hN hb ha hd'
  have hlive : ∀ t, Shape.Live I t := fun t => ⟨lat, hlat, hf _⟩
  obtain ⟨s, hs⟩ := hst
  have key : ∀ v : Fin d.dim → ℤ, ∀ t, Shape.Reachable I (fdTag d rev) (fdTag d rev t) → Shape.Reachable I (fdTag d rev) (fdTag d rev (t + v)) := by
    intro v
    have hv : v ∈ AddSubgroup.closure {v | v ∈ aux.voronoi} := by rw [C102_generate hN hb ha]; trivial
    have step : ∀ x ∈ aux.voronoi, ∀ t, Shape.Reachable I (fdTag d rev) (fdTag d rev t) → Shape.Reachable I (fdTag d rev) (fdTag d rev (t + x)) := by
      rintro x hx t ⟨n, hn⟩
      have := Shape.Within.step hn (d := x) hx (hlive _)
      rw [hfd.coset] at this
      exact ⟨n + 1, this⟩
    have gen : ∀ x ∈ AddSubgroup.closure {v | v ∈ aux.voronoi}, (∀ t, Shape.Reachable I (fdTag d rev) (fdTag d rev t) →
        Shape.Reachable I (fdTag d rev) (fdTag d rev (t + x))) ∧ ∀ t, Shape.Reachable I (fdTag d rev) (fdTag d rev t) →
        Shape.Reachable I (fdTag d rev) (fdTag d rev (t + -x)) := by
      intro x hx
      induction hx using AddSubgroup.closure_induction with
      | mem x hx => exact ⟨step x hx, step _ (hneg x hx)⟩
      | zero => exact ⟨fun t h => by rwa [add_zero], fun t h => by rwa [neg_zero, add_zero]⟩
      | add x y _ _ h1 h2 =>
        refine ⟨fun t h => by rw [← add_assoc]; exact h2.1 _ (h1.1 _ h), fun t h => ?_⟩
        rw [neg_add, ← add_assoc]; exact h2.2 _ (h1.2 _ h)
      | neg x _ h1 => exact ⟨h1.2, fun t h => by rw [neg_neg]; exact h1.1 t h⟩
    exact (gen v hv).1
  have hr : Shape.Reachable I (fdTag d rev) (fdTag d rev s) := ⟨0, .start hs (hlive _)⟩
  have := key (t - s) s hr
  rw [add_sub_cancel, ht] at this
  obtain ⟨n, hn⟩ := this
  exact ⟨n + 1, (Shape.C102_rounds ho hfd hneg n lat t).mpr ⟨hlat, hf _, hn⟩⟩

end

/-! ### Without symmetry -/

/-- The data of `NoSymmetry`: no periods. -/
def noFam (D : ℕ) : FamData 0 where
  dim := D
  m := 1
  le := Nat.zero_le _
  det_ne := by rw [Matrix.det_one]; exact one_ne_zero

theorem fdTag_noFam (D : ℕ) (rev : Bool) (t : Fin D → ℤ) : fdTag (noFam D) rev t = t := by
  obtain ⟨g, hg⟩ := fdTag_diff (noFam D) rev t
  rw [hg]
  have : (noFam D).mPart.mulVec g = 0 := by
    funext i
    rw [Matrix.mulVec, dotProduct]
    exact Finset.sum_empty
  rw [this]
  exact add_zero _

end Kwant.Lat
