import Verif.Gauge.Loops
import Mathlib.Analysis.SpecialFunctions.Exp
import Mathlib.Analysis.SpecialFunctions.Complex.Circle
import Mathlib.Analysis.Complex.Basic
import Mathlib.LinearAlgebra.CrossProduct
import Mathlib.LinearAlgebra.BilinearMap
import Mathlib.Algebra.BigOperators.Group.List.Basic

/-!
# C62, second part: the Peierls phases

Model of `kwant/physics/gauge.py`: `_calculate_phases` (l.768-798), `_previous_phase_finite` (l.807-812),
`_finite_wrapper` (l.853-863), `_surface_integral` with `_const_triangle` (l.48-88), `_peierls_finite` (l.882-891).

Simplifications
* Exact arithmetic.
* Sites are represented by their number (`syst.id_by_site` is a bijection between sites and numbers, C40).
* `loop[0]` and `loop[-1]` of an empty loop (an IndexError) do not occur; the model returns 0.
-/
set_option linter.unusedSectionVars false

namespace Kwant.Gauge
open Kwant.Dijkstra Complex

/-! ## Model -/

/-- The dictionary from links to phases. -/
abbrev Phases := ℕ × ℕ → Option ℂ

/-- `_previous_phase_finite` (gauge.py l.807-812). -/
noncomputable def previousPhaseFinite (ph : Phases) (path : List ℕ) : ℂ :=
  (path.zip path.tail).foldl (fun acc e => acc * (ph (e.1, e.2)).getD 1 / (ph (e.2, e.1)).getD 1) 1

/-- `_calculate_phases(loops, pos, previous_phase, flux)` (gauge.py l.768-798). -/
noncomputable def calculatePhases {V : Type} (loops : List (List ℕ)) (pos : ℕ → V) (previous : Phases → List ℕ → ℂ)
    (flux : List V → ℝ) : Phases :=
  loops.foldl (fun ph loop => Function.update ph (loop.getLastD 0, loop.headD 0)
    (some (Complex.exp (I * Real.pi * flux (loop.map pos)) / previous ph loop))) (fun _ => none)

/-- `_finite_wrapper` (gauge.py l.853-863). -/
noncomputable def finiteWrapper (ph : Phases) (i j : ℕ) : ℂ :=
  match ph (i, j) with
  | some p => p
  | none =>
    match ph (j, i) with
    | some p => (starRingEnd ℂ) p
    | none => 1

/-- `_surface_integral(f, loop)` (gauge.py l.56-88) for a constant field: `B v w` stands for
`np.dot(f, np.cross(v, w))`, see `area3` and `area2`. -/
noncomputable def surfaceIntegralConst {V : Type} [AddCommGroup V] [Module ℝ V] (B : V →ₗ[ℝ] V →ₗ[ℝ] ℝ) : List V → ℝ
  | [] => 0
  | origin :: points => ((points.zip points.tail).map fun e => B (e.1 - origin) (e.2 - origin) / 2).sum

/-- `np.dot(f, np.cross(v, w))` in three dimensions. -/
noncomputable def area3 (f : Fin 3 → ℝ) : (Fin 3 → ℝ) →ₗ[ℝ] (Fin 3 → ℝ) →ₗ[ℝ] ℝ :=
  LinearMap.mk₂ ℝ (fun v w => f ⬝ᵥ (crossProduct v w)) (by intros; simp) (by intros; simp) (by intros; simp)
    (by intros; simp)

/-- `np.dot(f, np.cross(v, w))` in two dimensions, where `np.cross` is a number. -/
noncomputable def area2 (f : ℝ) : (Fin 2 → ℝ) →ₗ[ℝ] (Fin 2 → ℝ) →ₗ[ℝ] ℝ :=
  LinearMap.mk₂ ℝ (fun v w => f * (v 0 * w 1 - v 1 * w 0)) (by intros; simp; ring) (by intros; simp; ring)
    (by intros; simp; ring) (by intros; simp; ring)

/-- `_peierls_finite` (gauge.py l.882-891): the function that `magnetic_gauge(syst)(field)` returns for a finite
system without leads. -/
noncomputable def peierlsFinite {V : Type} (loops : List (List ℕ)) (pos : ℕ → V) (flux : List V → ℝ) : ℕ → ℕ → ℂ :=
  finiteWrapper (calculatePhases loops pos previousPhaseFinite flux)

/-! ## Specification -/

/-- The steps of a closed loop: from each entry to the next, and from the last to the first. -/
def circuit {α : Type} (l : List α) : List (α × α) := l.zip (l.tail ++ l.take 1)

/-- Product of `P` around a closed loop. -/
noncomputable def around (P : ℕ → ℕ → ℂ) (l : List ℕ) : ℂ := ((circuit l).map fun e => P e.1 e.2).prod

/-- The field has a vector potential: the flux through a loop is the sum of its integrals `a` along the steps. -/
def HasPotential {V : Type} (flux : List V → ℝ) (a : V → V → ℝ) : Prop :=
  (∀ x y, a y x = - a x y) ∧ ∀ l, l ≠ [] → flux l = ((circuit l).map fun e => a e.1 e.2).sum

/-! ## Circuits -/

theorem circuit_eq {α : Type} : ∀ (x : α) (l : List α),
    circuit (x :: l) = (x :: l).zip l ++ [((x :: l).getLast (by simp), x)] := by
  intro x l
  have key : ∀ (l : List α) (x y : α), (x :: l).zip (l ++ [y]) = (x :: l).zip l ++ [((x :: l).getLast (by simp), y)] := by
    intro l
    induction l with
    | nil => intro x y; simp
    | cons z l ih =>
      intro x y
      rw [List.cons_append, List.zip_cons_cons, ih z y, List.zip_cons_cons, List.cons_append]
      rfl
  simpa [circuit] using key l x x

/-! ## Constant fields -/

section
variable {V : Type} [AddCommGroup V] [Module ℝ V] (B : V →ₗ[ℝ] V →ₗ[ℝ] ℝ)

theorem alt_swap (hB : ∀ v, B v v = 0) (v w : V) : B w v = - B v w := by
  have h := hB (v + w)
  simp only [map_add, LinearMap.add_apply, hB] at h
  linarith

theorem fan_sum (hB : ∀ v, B v v = 0) (o : V) : ∀ (p : V) (l : List V),
    (((p :: l).zip l).map fun e => B (e.1 - o) (e.2 - o) / 2).sum =
      (((p :: l).zip l).map fun e => B e.1 e.2 / 2).sum + B o p / 2 + B ((p :: l).getLast (by simp)) o / 2 := by
  intro p l
  induction l generalizing p with
  | nil =>
    have := alt_swap B hB o p
    simp [this]; ring
  | cons q l ih =>
    have e := ih q
    rw [List.zip_cons_cons, List.map_cons, List.sum_cons, e, List.map_cons, List.sum_cons]
    have h1 := alt_swap B hB o p
    have h2 := alt_swap B hB o q
    have h3 := hB o
    simp only [map_sub, LinearMap.sub_apply]
    rw [List.getLast_cons (by simp : q :: l ≠ [])]
    rw [h1, h3]
    ring

/-- The flux of a constant field has a vector potential (Stokes' theorem for polygons). -/
theorem const_potential (hB : ∀ v, B v v = 0) : HasPotential (surfaceIntegralConst B) fun v w => B v w / 2 := by
  refine ⟨fun v w => by show B w v / 2 = - (B v w / 2); rw [alt_swap B hB v w]; ring, ?_⟩
  intro l hl
  cases l with
  | nil => exact absurd rfl hl
  | cons o l =>
    rw [circuit_eq]
    cases l with
    | nil => simp [surfaceIntegralConst, hB]
    | cons p l =>
      have := fan_sum B hB o p l
      simp only [surfaceIntegralConst, List.tail_cons]
      rw [this, List.zip_cons_cons, List.map_append, List.map_cons, List.sum_append, List.sum_cons]
      rw [List.getLast_cons (by simp : p :: l ≠ [])]
      simp
      ring

theorem area3_alt (f : Fin 3 → ℝ) (v : Fin 3 → ℝ) : area3 f v v = 0 := by simp [area3]

theorem area2_alt (f : ℝ) (v : Fin 2 → ℝ) : area2 f v v = 0 := by simp [area2]; right; ring

end

/-! ## Phases -/

/-- The dictionary only has links of `S`, one direction of each, and unit numbers. -/
structure PInv (S : Set (ℕ × ℕ)) (ph : Phases) : Prop where
  dom : ∀ i j p, ph (i, j) = some p → (i, j) ∈ S
  one : ∀ i j p, ph (i, j) = some p → ph (j, i) = none
  unit : ∀ i j p, ph (i, j) = some p → ‖p‖ = 1

variable {S : Set (ℕ × ℕ)} {ph : Phases}

theorem norm_wrapper (h : PInv S ph) (i j : ℕ) : ‖finiteWrapper ph i j‖ = 1 := by
  unfold finiteWrapper
  cases h1 : ph (i, j) with
  | some p => exact h.unit i j p h1
  | none =>
    cases h2 : ph (j, i) with
    | some p => simpa using h.unit j i p h2
    | none => simp

theorem wrapper_swap (h : PInv S ph) (i j : ℕ) : finiteWrapper ph j i = (starRingEnd ℂ) (finiteWrapper ph i j) := by
  unfold finiteWrapper
  cases h1 : ph (i, j) with
  | some p => simp [h.one i j p h1]
  | none =>
    cases h2 : ph (j, i) with
    | some p => simp
    | none => simp

theorem wrapper_step (h : PInv S ph) (i j : ℕ) :
    (ph (i, j)).getD 1 / (ph (j, i)).getD 1 = finiteWrapper ph i j := by
  unfold finiteWrapper
  cases h1 : ph (i, j) with
  | some p => simp [h.one i j p h1]
  | none =>
    cases h2 : ph (j, i) with
    | some p =>
      have := h.unit j i p h2
      have hp : (starRingEnd ℂ) p * p = 1 := by
        rw [← normSq_eq_conj_mul_self, Complex.normSq_eq_norm_sq, this]; simp
      have hp0 : p ≠ 0 := by rintro rfl; simp at this
      simp only [Option.getD_none, Option.getD_some]
      rw [eq_comm, eq_div_iff hp0, hp]
    | none => simp

theorem previous_eq (h : PInv S ph) (path : List ℕ) :
    previousPhaseFinite ph path = ((path.zip path.tail).map fun e => finiteWrapper ph e.1 e.2).prod := by
  unfold previousPhaseFinite
  have key : ∀ (l : List (ℕ × ℕ)) (c : ℂ),
      l.foldl (fun acc e => acc * (ph (e.1, e.2)).getD 1 / (ph (e.2, e.1)).getD 1) c =
        c * (l.map fun e => finiteWrapper ph e.1 e.2).prod := by
    intro l
    induction l with
    | nil => simp
    | cons e l ih =>
      intro c
      rw [List.foldl_cons, ih, List.map_cons, List.prod_cons, mul_div_assoc, wrapper_step h, mul_assoc]
  rw [key]; simp

theorem norm_prod_wrapper (h : PInv S ph) (l : List (ℕ × ℕ)) :
    ‖(l.map fun e => finiteWrapper ph e.1 e.2).prod‖ = 1 := by
  induction l with
  | nil => simp
  | cons e l ih => simp [norm_wrapper h, ih]

/-- One more link in the dictionary. -/
theorem pinv_update (h : PInv S ph) (hs : ∀ e ∈ S, e.swap ∈ S) {i j : ℕ} (hij : (i, j) ∉ S) (hne : i ≠ j) {p : ℂ}
    (hp : ‖p‖ = 1) :
    PInv (S ∪ {(i, j), (j, i)}) (Function.update ph (i, j) (some p)) ∧
    (∀ a b, (a, b) ∈ S → finiteWrapper (Function.update ph (i, j) (some p)) a b = finiteWrapper ph a b) ∧
    finiteWrapper (Function.update ph (i, j) (some p)) i j = p := by
  have hd : ∀ a b q, Function.update ph (i, j) (some p) (a, b) = some q → ((a, b) = (i, j) ∧ q = p) ∨
      ((a, b) ≠ (i, j) ∧ ph (a, b) = some q) := by
    intro a b q hq
    by_cases hab : (a, b) = (i, j)
    · rw [hab, Function.update_self] at hq
      exact .inl ⟨hab, (Option.some.inj hq).symm⟩
    · rw [Function.update_of_ne hab] at hq
      exact .inr ⟨hab, hq⟩
  have hnone : ph (j, i) = none := by
    cases hq : ph (j, i) with
    | none => rfl
    | some q => exact absurd (hs _ (h.dom _ _ _ hq)) hij
  refine ⟨⟨?_, ?_, ?_⟩, ?_, ?_⟩
  · intro a b q hq
    rcases hd a b q hq with ⟨e, _⟩ | ⟨_, e⟩
    · exact .inr (.inl e)
    · exact .inl (h.dom _ _ _ e)
  · intro a b q hq
    rcases hd a b q hq with ⟨e, _⟩ | ⟨_, e⟩
    · obtain ⟨rfl, rfl⟩ := Prod.mk.inj e
      rw [Function.update_of_ne (fun e => hne (Prod.mk.inj e).2)]
      exact hnone
    · rw [Function.update_of_ne]
      · exact h.one a b q e
      · intro e2
        obtain ⟨rfl, rfl⟩ := Prod.mk.inj e2
        exact hij (hs _ (h.dom _ _ _ e))
  · intro a b q hq
    rcases hd a b q hq with ⟨_, rfl⟩ | ⟨_, e⟩
    · exact hp
    · exact h.unit _ _ _ e
  · intro a b hab
    have h1 : (a, b) ≠ (i, j) := by rintro e; rw [e] at hab; exact hij hab
    have h2 : (b, a) ≠ (i, j) := by
      intro e
      have := hs _ hab
      rw [Prod.swap_prod_mk, e] at this
      exact hij this
    simp only [finiteWrapper, Function.update_of_ne h1, Function.update_of_ne h2]
  · simp [finiteWrapper]

/-- The fold of `_calculate_phases` from a given dictionary. -/
noncomputable def phasesFrom {V : Type} (pos : ℕ → V) (flux : List V → ℝ) (loops : List (List ℕ)) (ph : Phases) : Phases :=
  loops.foldl (fun ph loop => Function.update ph (loop.getLastD 0, loop.headD 0)
    (some (Complex.exp (I * Real.pi * flux (loop.map pos)) / previousPhaseFinite ph loop))) ph

theorem norm_exp_flux (x : ℝ) : ‖Complex.exp (I * Real.pi * x)‖ = 1 := by
  have : I * Real.pi * x = ((Real.pi * x : ℝ) : ℂ) * I := by push_cast; ring
  rw [this, Complex.norm_exp_ofReal_mul_I]

theorem phases_spec {V : Type} {links : List (ℕ × ℕ)} (hirr : ∀ e ∈ links, e.1 ≠ e.2) (pos : ℕ → V) (flux : List V → ℝ) :
    ∀ (loops : List (List ℕ)) (S : Set (ℕ × ℕ)) (ph : Phases), PInv S ph → (∀ e ∈ S, e.swap ∈ S) → Ordered links S loops →
      (∃ T, PInv T (phasesFrom pos flux loops ph)) ∧
      (∀ a b, (a, b) ∈ S → finiteWrapper (phasesFrom pos flux loops ph) a b = finiteWrapper ph a b) ∧
      ∀ loop ∈ loops, around (finiteWrapper (phasesFrom pos flux loops ph)) loop =
        Complex.exp (I * Real.pi * flux (loop.map pos)) := by
  intro loops
  induction loops with
  | nil =>
    intro S ph h _ _
    exact ⟨⟨S, h⟩, fun _ _ _ => rfl, by simp⟩
  | cons path loops ih =>
    intro S ph h hs ho
    obtain ⟨frm, to_, h1, h2, h3, h4, h5, h6, h7⟩ := ho
    obtain ⟨l, rfl⟩ : ∃ l, path = to_ :: l := by
      cases path with
      | nil => cases h1
      | cons a l => exact ⟨l, by simp at h1; rw [h1]⟩
    have hlast : (to_ :: l).getLast (by simp) = frm := by
      rw [List.getLast?_eq_some_getLast (by simp)] at h2
      exact Option.some.inj h2
    have hlastD : (to_ :: l).getLastD 0 = frm := by
      rw [List.getLastD_eq_getLast?, h2]; rfl
    have hne : frm ≠ to_ := hirr _ h3
    set p := Complex.exp (I * Real.pi * flux ((to_ :: l).map pos)) / previousPhaseFinite ph (to_ :: l) with hp
    have hpn : ‖p‖ = 1 := by
      rw [hp, norm_div, norm_exp_flux, previous_eq h, norm_prod_wrapper h, div_one]
    obtain ⟨u1, u2, u3⟩ := pinv_update h hs h4 hne hpn
    have hs' : ∀ e ∈ S ∪ {(frm, to_), (to_, frm)}, e.swap ∈ S ∪ {(frm, to_), (to_, frm)} := by
      rintro e (h | rfl | rfl)
      · exact .inl (hs e h)
      · exact .inr (.inr rfl)
      · exact .inr (.inl rfl)
    obtain ⟨i1, i2, i3⟩ := ih _ _ u1 hs' h7
    have hE : phasesFrom pos flux ((to_ :: l) :: loops) ph =
        phasesFrom pos flux loops (Function.update ph (frm, to_) (some p)) := by
      unfold phasesFrom
      rw [List.foldl_cons, hlastD]
      rfl
    rw [hE]
    refine ⟨i1, fun a b hab => (i2 a b (.inl hab)).trans (u2 a b hab), ?_⟩
    intro loop hloop
    rcases List.mem_cons.mp hloop with rfl | hloop
    · unfold around
      rw [circuit_eq, List.map_append, List.prod_append, hlast]
      simp only [List.map_cons, List.map_nil, List.prod_cons, List.prod_nil, mul_one]
      rw [i2 frm to_ (.inr (.inl rfl)), u3]
      have hsteps : (((to_ :: l).zip l).map fun e =>
          finiteWrapper (phasesFrom pos flux loops (Function.update ph (frm, to_) (some p))) e.1 e.2) =
          ((to_ :: l).zip l).map fun e => finiteWrapper ph e.1 e.2 := by
        apply List.map_congr_left
        rintro ⟨a, b⟩ he
        have hab : (a, b) ∈ S := by
          have : ∀ (l : List ℕ) (x : ℕ), (x :: l).IsChain (fun a b => (a, b) ∈ S) → ∀ e ∈ (x :: l).zip l, e ∈ S := by
            intro l
            induction l with
            | nil => intro x _ e he; simp at he
            | cons y l ih =>
              intro x hx e he
              obtain ⟨hxy, hy⟩ := List.isChain_cons_cons.mp hx
              rcases List.mem_cons.mp he with rfl | he
              · exact hxy
              · exact ih y hy e he
          exact this l to_ h6 _ he
        exact (i2 a b (.inl hab)).trans (u2 a b hab)
      have hprev := previous_eq h (to_ :: l)
      rw [List.tail_cons] at hprev
      rw [hsteps, ← hprev, hp]
      have hpr0 : previousPhaseFinite ph (to_ :: l) ≠ 0 := by
        intro h0
        have := norm_prod_wrapper h ((to_ :: l).zip l)
        rw [← hprev, h0] at this
        simp at this
      field_simp
      rfl
    · exact i3 loop hloop

theorem pinv_empty (S : Set (ℕ × ℕ)) : PInv S (fun _ => none) :=
  ⟨fun _ _ _ h => (by cases h), fun _ _ _ h => (by cases h), fun _ _ _ h => (by cases h)⟩

/-! ## Closed walks -/

theorem zip_telescope {α M : Type} [CommGroup M] (φ : α → M) : ∀ (l : List α) (x : α),
    (((x :: l).zip l).map fun e => (φ e.1)⁻¹ * φ e.2).prod = (φ x)⁻¹ * φ ((x :: l).getLast (by simp)) := by
  intro l
  induction l with
  | nil => intro x; simp
  | cons y l ih =>
    intro x
    rw [List.zip_cons_cons, List.map_cons, List.prod_cons, ih y, List.getLast_cons (by simp : y :: l ≠ [])]
    group

theorem circuit_telescope {α M : Type} [CommGroup M] (φ : α → M) (l : List α) :
    ((circuit l).map fun e => (φ e.1)⁻¹ * φ e.2).prod = 1 := by
  cases l with
  | nil => simp [circuit]
  | cons x l =>
    rw [circuit_eq, List.map_append, List.prod_append, zip_telescope]
    simp

theorem chain_zip {T : Set (ℕ × ℕ)} : ∀ (l : List ℕ) (x : ℕ), (x :: l).IsChain (fun a b => (a, b) ∈ T) →
    ∀ e ∈ (x :: l).zip l, e ∈ T := by
  intro l
  induction l with
  | nil => intro x _ e he; simp at he
  | cons y l ih =>
    intro x hx e he
    obtain ⟨hxy, hy⟩ := List.isChain_cons_cons.mp hx
    rcases List.mem_cons.mp he with rfl | he
    · exact hxy
    · exact ih y hy e he

theorem ordered_ne {links : List (ℕ × ℕ)} : ∀ (loops : List (List ℕ)) (S : Set (ℕ × ℕ)), Ordered links S loops →
    ∀ l ∈ loops, l ≠ [] := by
  intro loops
  induction loops with
  | nil => intro S _ l hl; cases hl
  | cons p loops ih =>
    intro S ho l hl
    obtain ⟨_, _, e1, _, _, _, _, _, e2⟩ := ho
    rcases List.mem_cons.mp hl with rfl | hl
    · rintro rfl; cases e1
    · exact ih _ e2 l hl

/-- The steps of the loops are links of the system. -/
theorem ordered_circuit {links : List (ℕ × ℕ)} (hs : ∀ e ∈ links, e.swap ∈ links) : ∀ (loops : List (List ℕ))
    (S : Set (ℕ × ℕ)), (∀ e ∈ S, e ∈ links) → Ordered links S loops → ∀ loop ∈ loops, ∀ e ∈ circuit loop, e ∈ links := by
  intro loops
  induction loops with
  | nil => intro S _ _ loop h; cases h
  | cons path loops ih =>
    intro S hS ho loop hloop
    obtain ⟨frm, to_, h1, h2, h3, h4, h5, h6, h7⟩ := ho
    rcases List.mem_cons.mp hloop with rfl | hloop
    · obtain ⟨l, rfl⟩ : ∃ l, loop = to_ :: l := by
        cases loop with
        | nil => cases h1
        | cons a l => exact ⟨l, by simp at h1; rw [h1]⟩
      have hlast : (to_ :: l).getLast (by simp) = frm := by
        rw [List.getLast?_eq_some_getLast (by simp)] at h2
        exact Option.some.inj h2
      rw [circuit_eq, hlast]
      intro e he
      rcases List.mem_append.mp he with he | he
      · exact hS _ (chain_zip l to_ h6 e he)
      · rw [List.mem_singleton.mp he]; exact h3
    · refine ih _ ?_ h7 loop hloop
      rintro e (h | rfl | rfl)
      · exact hS e h
      · exact h3
      · exact hs _ h3

/-- If the product around every loop is 1, the potential of the tree is a potential for all links. -/
theorem extend_gradient {M : Type} [CommGroup M] {links : List (ℕ × ℕ)} (f : ℕ → ℕ → M) (hf : ∀ i j, f j i = (f i j)⁻¹)
    (φ : ℕ → M) : ∀ (loops : List (List ℕ)) (S : Set (ℕ × ℕ)), Ordered links S loops →
      (∀ loop ∈ loops, ((circuit loop).map fun e => f e.1 e.2).prod = 1) →
      (∀ i j, (i, j) ∈ S → f i j = (φ i)⁻¹ * φ j) → ∀ i j, (i, j) ∈ links → f i j = (φ i)⁻¹ * φ j := by
  intro loops
  induction loops with
  | nil => intro S ho _ h i j hij; exact h i j (ho _ hij)
  | cons path loops ih =>
    intro S ho hp h
    obtain ⟨frm, to_, h1, h2, h3, h4, h5, h6, h7⟩ := ho
    obtain ⟨l, rfl⟩ : ∃ l, path = to_ :: l := by
      cases path with
      | nil => cases h1
      | cons a l => exact ⟨l, by simp at h1; rw [h1]⟩
    have hlast : (to_ :: l).getLast (by simp) = frm := by
      rw [List.getLast?_eq_some_getLast (by simp)] at h2
      exact Option.some.inj h2
    have hprod := hp (to_ :: l) (by simp)
    rw [circuit_eq, List.map_append, List.prod_append, hlast] at hprod
    have hsteps : (((to_ :: l).zip l).map fun e => f e.1 e.2) = ((to_ :: l).zip l).map fun e => (φ e.1)⁻¹ * φ e.2 := by
      apply List.map_congr_left
      rintro ⟨a, b⟩ he
      exact h a b (chain_zip l to_ h6 _ he)
    rw [hsteps, zip_telescope, hlast] at hprod
    simp only [List.map_cons, List.map_nil, List.prod_cons, List.prod_nil, mul_one] at hprod
    have hnew : f frm to_ = (φ frm)⁻¹ * φ to_ := by
      have : f frm to_ = ((φ to_)⁻¹ * φ frm)⁻¹ := eq_inv_of_mul_eq_one_right hprod
      rw [this]; group
    refine ih _ h7 (fun loop hl => hp loop (by simp [hl])) ?_
    rintro i j (hij | hij | hij)
    · exact h i j hij
    · obtain ⟨rfl, rfl⟩ := Prod.mk.inj hij
      exact hnew
    · obtain ⟨rfl, rfl⟩ := Prod.mk.inj hij
      rw [hf, hnew]; group

/-! ## Theorems -/

section
variable (pick : List ℕ → (ℕ → ℝ) → ℕ) (choose : List ℕ → ℕ) (argsort : List ℝ → List ℕ)
variable {links : List (ℕ × ℕ)} {dist : ℕ → ℕ → ℝ} {n : ℕ} {V : Type}

/-- C62 for a finite system without leads.  The phases are unit numbers; reversing a hopping conjugates the phase; there is
a forest of links with phase 1; the product around every loop that was found is `exp(i π flux)`; every link is in the forest
or closes one of the loops (`Ordered`). -/
theorem C62_finite (hl : Links links n) (hd : ∀ i j, 0 ≤ dist i j) (hpick : MinPick pick) (hch : Choose choose)
    (hA : ArgSort argsort) (pos : ℕ → V) (flux : List V → ℝ) :
    ∃ (tree : Set (ℕ × ℕ)) (loops : List (List ℕ)), loopsInFinite pick choose argsort links dist n = some loops ∧
      (∀ e ∈ tree, e ∈ links) ∧ (∀ e ∈ tree, e.swap ∈ tree) ∧ Forest tree ∧ Ordered links tree loops ∧
      (∀ i j, ‖peierlsFinite loops pos flux i j‖ = 1) ∧
      (∀ i j, peierlsFinite loops pos flux j i = (starRingEnd ℂ) (peierlsFinite loops pos flux i j)) ∧
      (∀ i j, (i, j) ∈ tree → peierlsFinite loops pos flux i j = 1) ∧
      ∀ loop ∈ loops, around (peierlsFinite loops pos flux) loop = Complex.exp (I * Real.pi * flux (loop.map pos)) := by
  obtain ⟨tree, loops, h1, h2, h3, h4, _, h6⟩ := C62_loops pick choose argsort hl hd hpick hch hA (dist := dist)
  obtain ⟨⟨T, i1⟩, i2, i3⟩ := phases_spec hl.irrefl pos flux loops tree (fun _ => none) (pinv_empty _) h3 h6
  refine ⟨tree, loops, h1, h2, h3, h4, h6, ?_, ?_, ?_, i3⟩
  · exact fun i j => norm_wrapper i1 i j
  · exact fun i j => wrapper_swap i1 i j
  · intro i j hij
    exact (i2 i j hij).trans (by simp [finiteWrapper])

/-- The unit number of an angle. -/
noncomputable def angle (x : ℝ) : Circle := Circle.exp (Real.pi * x)

theorem angle_coe (x : ℝ) : (angle x : ℂ) = Complex.exp (I * Real.pi * x) := by
  rw [angle, Circle.coe_exp]
  congr 1
  push_cast; ring

/-- C62, gauge equivalence: if the field has a vector potential, the phases differ from the Peierls phases of the vector
potential only by a gauge transformation `φ`. -/
theorem C62_gauge (hl : Links links n) (hd : ∀ i j, 0 ≤ dist i j) (hpick : MinPick pick) (hch : Choose choose)
    (hA : ArgSort argsort) (pos : ℕ → V) (flux : List V → ℝ) (a : V → V → ℝ) (ha : HasPotential flux a) :
    ∃ loops, loopsInFinite pick choose argsort links dist n = some loops ∧
      ∃ φ : ℕ → Circle, ∀ i j, (i, j) ∈ links → peierlsFinite loops pos flux i j =
        ((φ i)⁻¹ : Circle) * Complex.exp (I * Real.pi * a (pos i) (pos j)) * (φ j : ℂ) := by
  obtain ⟨tree, loops, h1, h2, h3, h4, h6, h7, h8, h9, h10⟩ :=
    C62_finite pick choose argsort hl hd hpick hch hA pos flux (dist := dist)
  refine ⟨loops, h1, ?_⟩
  set P := peierlsFinite loops pos flux with hP
  have hex : ∀ i j, ∃ c : Circle, (c : ℂ) = P i j := fun i j =>
    ⟨(⟨P i j, mem_sphere_zero_iff_norm.mpr (h7 i j)⟩ : Circle), rfl⟩
  choose Pc hPc using hex
  have hPs : ∀ i j, Pc j i = (Pc i j)⁻¹ := by
    intro i j
    apply Subtype.ext
    rw [Circle.coe_inv_eq_conj]
    rw [hPc, hPc, h8 i j]
  let f : ℕ → ℕ → Circle := fun i j => Pc i j * (angle (a (pos i) (pos j)))⁻¹
  have hf : ∀ i j, f j i = (f i j)⁻¹ := by
    intro i j
    have : angle (a (pos j) (pos i)) = (angle (a (pos i) (pos j)))⁻¹ := by
      rw [ha.1 (pos i) (pos j), angle, angle, mul_neg, Circle.exp_neg]
    simp only [f, hPs i j, this]
    rw [mul_inv]
  have hprod : ∀ loop ∈ loops, ((circuit loop).map fun e => f e.1 e.2).prod = 1 := by
    intro loop hloop
    have hne : loop ≠ [] := by
      have : ∀ (loops : List (List ℕ)) (S : Set (ℕ × ℕ)), Ordered links S loops → ∀ l ∈ loops, l ≠ [] := by
        intro loops
        induction loops with
        | nil => intro S _ l hl; cases hl
        | cons p loops ih =>
          intro S ho l hl
          obtain ⟨_, _, e1, _, _, _, _, _, e2⟩ := ho
          rcases List.mem_cons.mp hl with rfl | hl
          · rintro rfl; cases e1
          · exact ih _ e2 l hl
      exact this loops tree h6 loop hloop
    have e1 : ((circuit loop).map fun e => f e.1 e.2).prod =
        ((circuit loop).map fun e => Pc e.1 e.2).prod *
          (angle (((circuit loop).map fun e => a (pos e.1) (pos e.2)).sum))⁻¹ := by
      generalize circuit loop = c
      induction c with
      | nil => simp [angle]
      | cons e c ih =>
        simp only [List.map_cons, List.prod_cons, List.sum_cons, ih, f]
        rw [angle, angle, angle, mul_add, Circle.exp_add, mul_inv]
        simp only [mul_assoc, mul_left_comm]
    have e2 : ((circuit (loop.map pos)).map fun e => a e.1 e.2).sum =
        ((circuit loop).map fun e => a (pos e.1) (pos e.2)).sum := by
      have : circuit (loop.map pos) = (circuit loop).map (Prod.map pos pos) := by
        unfold circuit
        rw [← List.map_tail, ← List.map_take, ← List.map_append, List.zip_map]
      rw [this, List.map_map]
      rfl
    have e3 : (((circuit loop).map fun e => Pc e.1 e.2).prod : ℂ) = around P loop := by
      unfold around
      generalize circuit loop = c
      induction c with
      | nil => simp
      | cons e c ih => simp [← ih, hPc]
    have e4 : ((circuit loop).map fun e => Pc e.1 e.2).prod = angle (flux (loop.map pos)) := by
      apply Subtype.ext
      rw [e3, h10 loop hloop, angle_coe]
    rw [e1, e4, ha.2 _ (by simpa using hne), e2, mul_inv_cancel]
  obtain ⟨φ, hφ⟩ := h4 Circle f hf
  have hall := extend_gradient f hf φ loops tree h6 hprod hφ
  refine ⟨φ, ?_⟩
  intro i j hij
  have := hall i j hij
  have h : Pc i j = (φ i)⁻¹ * angle (a (pos i) (pos j)) * φ j := by
    have h' : Pc i j = f i j * angle (a (pos i) (pos j)) := by simp [f]
    rw [h', this]
    simp only [mul_assoc, mul_comm]
  rw [← hPc, h]
  simp [angle_coe]

/-- C62, all closed walks: if the field has a vector potential, the product of the phases around *every* closed walk along
hoppings of the system is `exp(i π flux)`, with the flux through that walk. -/
theorem C62_closed (hl : Links links n) (hd : ∀ i j, 0 ≤ dist i j) (hpick : MinPick pick) (hch : Choose choose)
    (hA : ArgSort argsort) (pos : ℕ → V) (flux : List V → ℝ) (a : V → V → ℝ) (ha : HasPotential flux a) :
    ∃ loops, loopsInFinite pick choose argsort links dist n = some loops ∧
      ∀ walk, walk ≠ [] → (∀ e ∈ circuit walk, e ∈ links) →
        around (peierlsFinite loops pos flux) walk = Complex.exp (I * Real.pi * flux (walk.map pos)) := by
  obtain ⟨loops, h1, φ, h2⟩ := C62_gauge pick choose argsort hl hd hpick hch hA pos flux a ha (dist := dist)
  refine ⟨loops, h1, ?_⟩
  intro walk hne hw
  have e2 : ((circuit (walk.map pos)).map fun e => a e.1 e.2).sum =
      ((circuit walk).map fun e => a (pos e.1) (pos e.2)).sum := by
    have : circuit (walk.map pos) = (circuit walk).map (Prod.map pos pos) := by
      unfold circuit
      rw [← List.map_tail, ← List.map_take, ← List.map_append, List.zip_map]
    rw [this, List.map_map]
    rfl
  rw [ha.2 _ (by simpa using hne), e2, ← angle_coe]
  have e3 : around (peierlsFinite loops pos flux) walk =
      ((((circuit walk).map fun e => (φ e.1)⁻¹ * φ e.2).prod *
        angle (((circuit walk).map fun e => a (pos e.1) (pos e.2)).sum) : Circle) : ℂ) := by
    unfold around
    generalize circuit walk = c at hw
    induction c with
    | nil => simp [angle]
    | cons e c ih =>
      rw [List.map_cons, List.prod_cons, ih (fun e he => hw e (by simp [he])), h2 e.1 e.2 (hw e (by simp)),
        List.map_cons, List.prod_cons, List.map_cons, List.sum_cons, ← angle_coe]
      rw [show angle (a (pos e.1) (pos e.2) + (c.map fun e => a (pos e.1) (pos e.2)).sum) =
        angle (a (pos e.1) (pos e.2)) * angle (c.map fun e => a (pos e.1) (pos e.2)).sum by
          rw [angle, mul_add, Circle.exp_add]; rfl]
      simp only [Circle.coe_mul]
      ring
  rw [e3, circuit_telescope, one_mul]

/-- C62 for a constant field in two or three dimensions (`area2`, `area3`), or any other bilinear alternating form. -/
theorem C62_constant [AddCommGroup V] [Module ℝ V] (hl : Links links n) (hd : ∀ i j, 0 ≤ dist i j) (hpick : MinPick pick)
    (hch : Choose choose) (hA : ArgSort argsort) (pos : ℕ → V) (B : V →ₗ[ℝ] V →ₗ[ℝ] ℝ) (hB : ∀ v, B v v = 0) :
    ∃ loops, loopsInFinite pick choose argsort links dist n = some loops ∧
      ∀ walk, walk ≠ [] → (∀ e ∈ circuit walk, e ∈ links) →
        around (peierlsFinite loops pos (surfaceIntegralConst B)) walk =
          Complex.exp (I * Real.pi * surfaceIntegralConst B (walk.map pos)) :=
  C62_closed pick choose argsort hl hd hpick hch hA pos _ _ (const_potential B hB)

end

end Kwant.Gauge
