import Verif.Gauge.CompositeCheck
import Verif.Gauge.Example

/-!
# C149, C150: concrete systems, and systems for which the check is wrong
-/
set_option linter.unusedSectionVars false

namespace Kwant.Gauge
open Kwant.Dijkstra Complex

/-! ## The specifications of the library functions are met -/

open Classical in
/-- The smallest node that is connected. -/
noncomputable def minLabel (links : List (ℕ × ℕ)) (i : ℕ) : ℕ := Nat.find (⟨i, .refl⟩ : ∃ j, Conn {e | e ∈ links} i j)

theorem minLabel_spec : Components minLabel := by
  classical
  intro links hsy i j
  have hsym : ∀ {a b}, Conn {e | e ∈ links} a b → Conn {e | e ∈ links} b a := fun h => conn_symm (fun e he => hsy e he) h
  have hi := Nat.find_spec (⟨i, .refl⟩ : ∃ j, Conn {e | e ∈ links} i j)
  have hj := Nat.find_spec (⟨j, .refl⟩ : ∃ k, Conn {e | e ∈ links} j k)
  constructor
  · intro h
    unfold minLabel at h
    rw [h] at hi
    exact hi.trans (hsym hj)
  · intro h
    unfold minLabel
    apply le_antisymm
    · exact Nat.find_min' _ (h.trans hj)
    · exact Nat.find_min' _ ((hsym h).trans hi)

theorem spanning_list : ∀ l : List (ℕ × ℕ), ∃ T : List (ℕ × ℕ), (∀ e ∈ T, e ∈ l) ∧ Forest (both T) ∧
    ∀ a b, (a, b) ∈ l → Conn (both T) a b := by
  intro l
  induction l with
  | nil =>
    refine ⟨[], by simp, ?_, by simp⟩
    intro M _ f _
    refine ⟨fun _ => 1, ?_⟩
    rintro i j (h | h) <;> cases h
  | cons e l ih =>
    obtain ⟨a, b⟩ := e
    obtain ⟨T, h1, h2, h3⟩ := ih
    by_cases hc : Conn (both T) a b
    · refine ⟨T, fun e he => List.mem_cons_of_mem _ (h1 e he), h2, ?_⟩
      intro x y hxy
      rcases List.mem_cons.mp hxy with h | h
      · obtain ⟨rfl, rfl⟩ := Prod.mk.inj h; exact hc
      · exact h3 x y h
    · refine ⟨(a, b) :: T, ?_, forest_cons h2 hc, ?_⟩
      · intro e he
        rcases List.mem_cons.mp he with rfl | h
        · simp
        · exact List.mem_cons_of_mem _ (h1 e h)
      · intro x y hxy
        rcases List.mem_cons.mp hxy with h | h
        · obtain ⟨rfl, rfl⟩ := Prod.mk.inj h
          exact .single (.inl (by simp))
        · refine conn_mono ?_ (h3 x y h)
          rintro f (hf | hf)
          · exact .inl (List.mem_cons_of_mem _ hf)
          · exact .inr (List.mem_cons_of_mem _ hf)

/-- There are spanning trees. -/
theorem spanning_exists : ∃ mst, SpanningTree mst := by
  classical
  have : ∀ g : ℕ × ℕ → ℕ, ∃ T : List (ℕ × ℕ), {e | g e ≠ 0}.Finite → (∀ e ∈ T, g e ≠ 0) ∧ Forest (both T) ∧
      ∀ a b, g (a, b) ≠ 0 → Conn (both T) a b := by
    intro g
    by_cases hf : {e | g e ≠ 0}.Finite
    · obtain ⟨T, h1, h2, h3⟩ := spanning_list hf.toFinset.toList
      refine ⟨T, fun _ => ⟨?_, h2, ?_⟩⟩
      · intro e he
        have := h1 e he
        rw [Finset.mem_toList, hf.mem_toFinset] at this
        exact this
      · intro a b hab
        apply h3
        rw [Finset.mem_toList, hf.mem_toFinset]
        exact hab
    · exact ⟨[], fun h => absurd h hf⟩
  choose mst hmst using this
  exact ⟨mst, fun g hf _ _ => hmst g hf⟩

/-! ## A wire with two leads -/

/-- A ladder of three rungs; the first one was added by `attach_lead` (`add_cells=1`). -/
def wire : CSyst where
  n := 6
  links := [(0, 1), (1, 0), (2, 3), (3, 2), (4, 5), (5, 4), (0, 2), (2, 0), (1, 3), (3, 1), (2, 4), (4, 2), (3, 5), (5, 3)]
  dist := fun _ _ => 1
  leads := [⟨2, 4, ladder, fun _ _ => 1, [0, 1], [0, 1]⟩, ⟨2, 4, ladder, fun _ _ => 1, [4, 5], []⟩]

theorem wire_extended : wire.extended = wire.links ++
    [(6, 7), (7, 6), (6, 0), (0, 6), (7, 1), (1, 7), (8, 9), (9, 8), (8, 4), (4, 8), (9, 5), (5, 9)] := rfl

theorem wire_ok : CompositeOk wire where
  links := by constructor <;> decide
  dist_nonneg := fun _ _ => zero_le_one
  dist_symm := fun _ _ => rfl
  lead_links := by
    intro p hp
    have hp : p < 2 := hp
    interval_cases p <;> exact ladder_ok
  lead_nonneg := by
    intro p hp
    have hp : p < 2 := hp
    interval_cases p <;> exact fun _ _ => zero_le_one
  lead_symm := by
    intro p hp
    have hp : p < 2 := hp
    interval_cases p <;> exact fun _ _ => rfl
  interface_length := by decide
  interface_nodup := by decide
  interface_lt := by decide
  interface_hop := by
    intro p hp k hk
    have hp : p < 2 := hp
    interval_cases p
    · have hk : k < 2 := hk
      refine ⟨k, ?_⟩
      interval_cases k <;> decide
    · have hk : k < 2 := hk
      refine ⟨k, ?_⟩
      interval_cases k <;> decide
  padding_lt := by decide
  padding_disjoint := by
    intro p hp q hq hpq
    have hp : p < 2 := hp
    have hq : q < 2 := hq
    interval_cases p <;> interval_cases q <;> first | exact absurd rfl hpq | decide

/-- The column of a site. -/
def column : ℕ → ℤ
  | 6 => -1
  | 7 => -1
  | i => (i / 2 : ℕ) - if 8 ≤ i then 1 else 0

/-- The coordinates in the leads: the left one counts to the left, the right one to the right. -/
def wireAt (p i : ℕ) : ℤ × ℕ := if p = 0 then (-column i, i % 2) else (column i - 2, i % 2)

noncomputable def wirePos (i : ℕ) : Fin 2 → ℝ := ![(column i : ℝ), ((i % 2 : ℕ) : ℝ)]
noncomputable def wireLeadPos (p i : ℕ) : Fin 2 → ℝ := ![if p = 0 then 0 else 2, (i : ℝ)]
noncomputable def wirePeriod (p : ℕ) : Fin 2 → ℝ := ![if p = 0 then -1 else 1, 0]

theorem wire_coord : ∀ p < 2, ∀ i < 10, extCoord wire wireAt p i = wireAt p i := by decide

theorem wire_separate : Separate wire := by
  unfold Separate
  rw [wire_extended]
  decide

theorem wire_attached : Attached wire wireAt where
  interface := by decide
  padding := by
    have e1 : ∀ d : ℤ, Hop ladder 2 (d, 0) (d, 1) := fun d => .cell d (by omega) (by omega) (by decide)
    have e2 : ∀ d : ℤ, Hop ladder 2 (d, 1) (d, 0) := fun d => .cell d (by omega) (by omega) (by decide)
    have e3 : Hop ladder 2 (0, 0) (-1, 0) := .down 0 (by omega) (by decide)
    have e4 : Hop ladder 2 (-1, 0) (0, 0) := .up 0 (by omega) (by decide)
    have e5 : Hop ladder 2 (0, 1) (-1, 1) := .down 0 (by omega) (by decide)
    have e6 : Hop ladder 2 (-1, 1) (0, 1) := .up 0 (by omega) (by decide)
    intro p hp e he h
    have hp : p < 2 := hp
    interval_cases p
    · have key : e = (0, 1) ∨ e = (1, 0) ∨ e = (0, 2) ∨ e = (2, 0) ∨ e = (1, 3) ∨ e = (3, 1) := by
        revert e; decide
      rcases key with rfl | rfl | rfl | rfl | rfl | rfl
      · exact e1 0
      · exact e2 0
      · exact e3
      · exact e4
      · exact e5
      · exact e6
    · rcases h with h | h <;> cases h

theorem wire_positions : Positions wire wireAt wirePos wireLeadPos wirePeriod := by
  intro p hp e he _
  have hp : p < 2 := hp
  have hlt : e.1 < 10 := by
    have : ∀ e ∈ wire.extended, e.1 < 10 := by rw [wire_extended]; decide
    exact this e he
  rw [wire_coord p hp _ hlt]
  have key : ∀ i, wirePos i = wireLeadPos p (wireAt p i).2 + (wireAt p i).1 • wirePeriod p := by
    intro i
    interval_cases p
    · funext c
      fin_cases c <;> simp [wirePos, wireLeadPos, wirePeriod, wireAt]
    · funext c
      fin_cases c <;> simp [wirePos, wireLeadPos, wirePeriod, wireAt]
  exact key e.1

theorem wire_check : checkComposite wire = true := by
  unfold checkComposite
  rw [if_neg (by decide)]
  have h : leadGraph wire = [] := by decide
  rw [h, beq_iff_eq, numComponents_eq, smallest_nil]
  simp

theorem wire_leads : LeadsOk wire := by
  intro p hp
  have hp : p < 2 := hp
  interval_cases p
  · exact ⟨ladder_check, by decide⟩
  · exact ⟨ladder_check, by decide⟩

theorem wire_interior : HasInterior wire := ⟨2, 3, 0, by decide, by decide, by decide, by decide, by decide⟩

/-- C149 for the wire: around two plaquettes, one in the left lead and one that it shares with the scattering region, the
phases multiply to `exp(i π 2 f)`. -/
theorem wire_phase (f : ℝ) : ∃ mst, SpanningTree mst ∧ ∃ (P : ℕ → ℕ → ℂ) (Q : ℕ → ℤ × ℕ → ℤ × ℕ → ℂ),
    peierlsComposite minLabel mst firstMin (fun l => l.headD 0) sortIdx firstArgMin wire wireAt wirePos wireLeadPos wirePeriod
      (surfaceIntegralConst (area2 f)) (List.replicate 2 (surfaceIntegralConst (area2 f))) = some P ∧
    around (phaseOf wire wireAt P Q) [6, 0, 2, 3, 1, 7] = Complex.exp (I * Real.pi * ((2 * f : ℝ) : ℂ)) := by
  obtain ⟨mst, hmst⟩ := spanning_exists
  obtain ⟨P, Q, h1, _, h2⟩ := C149_constant minLabel mst firstMin (fun l => l.headD 0) sortIdx firstArgMin wire_ok
    firstMin_spec headD_spec sortIdx_spec firstArgMin_spec minLabel_spec hmst wire_separate wire_attached wire_leads wire_check
    wire_interior wirePos wireLeadPos wirePeriod wire_positions (area2 f) (area2_alt f)
  refine ⟨mst, hmst, P, Q, h1, ?_⟩
  rw [h2 _ (by simp) (by decide)]
  congr 4
  simp [surfaceIntegralConst, area2, wirePos, column]
  ring

/-- C150 for the wire: the hypotheses of the completeness theorem are met. -/
theorem wire_accepted : PatchesConnected wire ∧ NoTriple wire ∧ Consistent wire := by
  have hext : ∀ p x, AtPatch wire p x → (p = 0 ∧ (x = 0 ∨ x = 1 ∨ x = 2 ∨ x = 3 ∨ x = 6 ∨ x = 7)) ∨
      (p = 1 ∧ (x = 4 ∨ x = 5 ∨ x = 8 ∨ x = 9)) := by
    rintro p x ⟨y, h1, h2⟩
    have key : ∀ e ∈ wire.extended, max (wire.patch e.1) (wire.patch e.2) = -1 ∨
        (max (wire.patch e.1) (wire.patch e.2) = 0 ∧
          (e.1 = 0 ∨ e.1 = 1 ∨ e.1 = 2 ∨ e.1 = 3 ∨ e.1 = 6 ∨ e.1 = 7)) ∨
        (max (wire.patch e.1) (wire.patch e.2) = 1 ∧ (e.1 = 4 ∨ e.1 = 5 ∨ e.1 = 8 ∨ e.1 = 9)) := by
      rw [wire_extended]; decide
    rcases key _ h1 with h | h | h
    · omega
    · exact .inl ⟨by omega, h.2⟩
    · exact .inr ⟨by omega, h.2⟩
  have hs : ∀ {p x y}, Conn (fixedBy wire p) x y → Conn (fixedBy wire p) y x := fun h => conn_symm (fixedBy_symm wire_ok) h
  refine ⟨?_, ?_, C150_sound_partial wire_ok wire_separate wire_check⟩
  · intro p _ x y hx hy
    have h01 : Conn (fixedBy wire 0) 0 1 := .single ⟨by decide, by decide⟩
    have h02 : Conn (fixedBy wire 0) 0 2 := .single ⟨by decide, by decide⟩
    have h06 : Conn (fixedBy wire 0) 0 6 := .single ⟨by decide, by decide⟩
    have h03 : Conn (fixedBy wire 0) 0 3 := h01.tail ⟨by decide, by decide⟩
    have h07 : Conn (fixedBy wire 0) 0 7 := h01.tail ⟨by decide, by decide⟩
    have h84 : Conn (fixedBy wire 1) 8 4 := .single ⟨by decide, by decide⟩
    have h89 : Conn (fixedBy wire 1) 8 9 := .single ⟨by decide, by decide⟩
    have h85 : Conn (fixedBy wire 1) 8 5 := h89.tail ⟨by decide, by decide⟩
    rcases hext p x hx with ⟨rfl, h⟩ | ⟨rfl, h⟩
    · have k : ∀ z, AtPatch wire 0 z → Conn (fixedBy wire 0) 0 z := by
        intro z hz
        rcases hext 0 z hz with ⟨_, h⟩ | ⟨h, _⟩
        · rcases h with rfl | rfl | rfl | rfl | rfl | rfl
          exacts [.refl, h01, h02, h03, h06, h07]
        · cases h
      exact (hs (k x hx)).trans (k y hy)
    · have k : ∀ z, AtPatch wire 1 z → Conn (fixedBy wire 1) 8 z := by
        intro z hz
        rcases hext 1 z hz with ⟨h, _⟩ | ⟨_, h⟩
        · cases h
        · rcases h with rfl | rfl | rfl | rfl
          exacts [h84, h85, .refl, h89]
      exact (hs (k x hx)).trans (k y hy)
  · intro p q r x hp hq hr
    have h1 := hext p x hp
    have h2 := hext q x hq
    have h3 := hext r x hr
    omega

/-! ## Systems for which the check is wrong -/

/-- A lead of two sites per unit cell, one of which has a hopping to the next cell. -/
def stub (interface padding : List ℕ) : CLead := ⟨2, 3, [(0, 1), (1, 0), (0, 2), (2, 0)], fun _ _ => 1, interface, padding⟩

theorem stub_ok : InfLinks [(0, 1), (1, 0), (0, 2), (2, 0)] 2 3 := by
  constructor <;> decide

/-- If leads share at most one site, and it is the same for all, their gauges can be combined. -/
theorem consistent_star {s : CSyst} (x0 : ℕ) (owner : ℕ → ℕ)
    (h : ∀ e ∈ s.extended, (s.patch e.1 ≠ -1 ∨ s.patch e.2 ≠ -1) → ∃ p < s.leads.length,
      max (s.patch e.1) (s.patch e.2) = (p : ℕ) ∧ (e.1 = x0 ∨ owner e.1 = p) ∧ (e.2 = x0 ∨ owner e.2 = p)) :
    Consistent s := by
  intro M _ f _ hg
  have hg' : ∀ p, ∃ φ : ℕ → M, p < s.leads.length → ∀ i j, (i, j) ∈ fixedBy s p → f i j = (φ i)⁻¹ * φ j := by
    intro p
    by_cases hp : p < s.leads.length
    · obtain ⟨φ, hφ⟩ := hg p hp
      exact ⟨φ, fun _ => hφ⟩
    · exact ⟨fun _ => 1, fun h => absurd h hp⟩
  choose φ hφ using hg'
  refine ⟨fun i => if i = x0 then 1 else (φ (owner i) x0)⁻¹ * φ (owner i) i, ?_⟩
  rintro i j ⟨h1, h2⟩
  obtain ⟨p, hp, h3, h4, h5⟩ := h _ h1 h2
  have key : ∀ k, (k = x0 ∨ owner k = p) →
      (if k = x0 then 1 else (φ (owner k) x0)⁻¹ * φ (owner k) k) = (φ p x0)⁻¹ * φ p k := by
    intro k hk
    by_cases h : k = x0
    · rw [if_pos h, h, inv_mul_cancel]
    · rw [if_neg h, hk.resolve_left h]
  beta_reduce
  rw [key i h4, key j h5, hφ p hp i j ⟨h1, h3⟩, mul_inv, inv_inv]
  rw [show φ p x0 * (φ p i)⁻¹ * ((φ p x0)⁻¹ * φ p j) = (φ p x0 * (φ p x0)⁻¹) * ((φ p i)⁻¹ * φ p j) by
    simp only [mul_assoc, mul_left_comm, mul_comm], mul_inv_cancel, one_mul]

theorem numComponents_pos {k : ℕ} (hk : 0 < k) (l : List (ℕ × ℕ)) : 0 < numComponents k l := by
  rw [numComponents_eq, Finset.card_pos]
  refine ⟨0, ?_⟩
  simp only [smallest, Finset.mem_filter, Finset.mem_range]
  exact ⟨hk, fun j hj => absurd hj (by omega)⟩

/-- Three leads at the same site. -/
def star : CSyst := ⟨2, [(0, 1), (1, 0)], fun _ _ => 1, [stub [0] [], stub [0] [], stub [0] []]⟩

theorem star_ok : CompositeOk star where
  links := by constructor <;> decide
  dist_nonneg := fun _ _ => zero_le_one
  dist_symm := fun _ _ => rfl
  lead_links := by
    intro p hp
    have hp : p < 3 := hp
    interval_cases p <;> exact stub_ok
  lead_nonneg := by
    intro p hp
    have hp : p < 3 := hp
    interval_cases p <;> exact fun _ _ => zero_le_one
  lead_symm := by
    intro p hp
    have hp : p < 3 := hp
    interval_cases p <;> exact fun _ _ => rfl
  interface_length := by decide
  interface_nodup := by decide
  interface_lt := by decide
  interface_hop := by
    intro p hp k hk
    have hp : p < 3 := hp
    refine ⟨0, ?_⟩
    interval_cases p <;> (have hk : k < 1 := hk; interval_cases k; decide)
  padding_lt := by decide
  padding_disjoint := by
    intro p hp q hq hpq
    have hp : p < 3 := hp
    have hq : q < 3 := hq
    interval_cases p <;> interval_cases q <;> first | exact absurd rfl hpq | decide

/-- Two leads: the first one with padding, the second one attached to a padding site of the first one. -/
def pair : CSyst := ⟨3, [(0, 1), (1, 0), (0, 2), (2, 0)], fun _ _ => 1, [stub [0] [0, 2], stub [0] []]⟩

theorem pair_ok : CompositeOk pair where
  links := by constructor <;> decide
  dist_nonneg := fun _ _ => zero_le_one
  dist_symm := fun _ _ => rfl
  lead_links := by
    intro p hp
    have hp : p < 2 := hp
    interval_cases p <;> exact stub_ok
  lead_nonneg := by
    intro p hp
    have hp : p < 2 := hp
    interval_cases p <;> exact fun _ _ => zero_le_one
  lead_symm := by
    intro p hp
    have hp : p < 2 := hp
    interval_cases p <;> exact fun _ _ => rfl
  interface_length := by decide
  interface_nodup := by decide
  interface_lt := by decide
  interface_hop := by
    intro p hp k hk
    have hp : p < 2 := hp
    refine ⟨0, ?_⟩
    interval_cases p <;> (have hk : k < 1 := hk; interval_cases k; decide)
  padding_lt := by decide
  padding_disjoint := by
    intro p hp q hq hpq
    have hp : p < 2 := hp
    have hq : q < 2 := hq
    interval_cases p <;> interval_cases q <;> first | exact absurd rfl hpq | decide

/-- Three leads in a circle: lead 0 with padding (sites 0 and 3) ends at site 1, lead 1 connects the sites 1 and 2, lead 2
connects the sites 2 and 0. -/
def circle : CSyst := ⟨4, [(0, 1), (1, 0), (0, 3), (3, 0)], fun _ _ => 1,
  [stub [0] [0, 3], ⟨2, 4, ladder, fun _ _ => 1, [1, 2], []⟩, ⟨2, 4, ladder, fun _ _ => 1, [2, 0], []⟩]⟩

theorem circle_ok : CompositeOk circle where
  links := by constructor <;> decide
  dist_nonneg := fun _ _ => zero_le_one
  dist_symm := fun _ _ => rfl
  lead_links := by
    intro p hp
    have hp : p < 3 := hp
    interval_cases p
    exacts [stub_ok, ladder_ok, ladder_ok]
  lead_nonneg := by
    intro p hp
    have hp : p < 3 := hp
    interval_cases p <;> exact fun _ _ => zero_le_one
  lead_symm := by
    intro p hp
    have hp : p < 3 := hp
    interval_cases p <;> exact fun _ _ => rfl
  interface_length := by decide
  interface_nodup := by decide
  interface_lt := by decide
  interface_hop := by
    intro p hp k hk
    have hp : p < 3 := hp
    interval_cases p
    · have hk : k < 1 := hk
      refine ⟨0, ?_⟩
      interval_cases k; decide
    · have hk : k < 2 := hk
      refine ⟨k, ?_⟩
      interval_cases k <;> decide
    · have hk : k < 2 := hk
      refine ⟨k, ?_⟩
      interval_cases k <;> decide
  padding_lt := by decide
  padding_disjoint := by
    intro p hp q hq hpq
    have hp : p < 3 := hp
    have hq : q < 3 := hq
    interval_cases p <;> interval_cases q <;> first | exact absurd rfl hpq | decide

/-- Disagreement: three leads at one site are rejected although there is no closed loop through them. -/
theorem C150_counterexample_star : CompositeOk star ∧ Separate star ∧ Consistent star ∧ checkComposite star = false := by
  refine ⟨star_ok, by unfold Separate; decide, ?_, ?_⟩
  · apply consistent_star 0 fun i => (i - 2) / 2
    decide
  · unfold checkComposite
    rw [if_neg (by decide)]
    have h : (leadGraph star).length = 6 := by decide
    have h2 := numComponents_pos (k := 3) (by omega) (leadGraph star)
    have h3 : star.leads.length = 3 := rfl
    rw [h, h3, beq_eq_false_iff_ne]
    omega

/-- Disagreement: a lead attached to a single padding site of another one is rejected, although there is no closed loop through
both: `metagraph` is not symmetric, and half of its single entry is rounded down to 0. -/
theorem C150_counterexample_pair : CompositeOk pair ∧ Consistent pair ∧ checkComposite pair = false := by
  refine ⟨pair_ok, ?_, ?_⟩
  · apply consistent_star 0 fun i => if i < 5 then 0 else 1
    decide
  · unfold checkComposite
    rw [if_neg (by decide)]
    have h : leadGraph pair = [(1, 0)] := by decide
    have h3 : pair.leads.length = 2 := rfl
    have h2 : numComponents 2 [(1, 0)] ≤ 1 := by
      rw [numComponents_eq, show 1 = ({0} : Finset ℕ).card from rfl]
      apply Finset.card_le_card
      intro i hi
      simp only [smallest, Finset.mem_filter, Finset.mem_range] at hi
      rw [Finset.mem_singleton]
      by_contra hne
      obtain rfl : i = 1 := by omega
      exact hi.2 0 (by omega) (.single (show (1, 0) ∈ both [(1, 0)] from .inl (by simp)))
    rw [h, h3, beq_eq_false_iff_ne, List.length_singleton]
    omega

/-- Disagreement: the circle of three leads is accepted, although the leads close a loop: two entries of `metagraph` are
symmetric, the third one is not, and half of the five entries is rounded down to 2. -/
theorem C150_counterexample_circle : CompositeOk circle ∧ checkComposite circle = true ∧ ¬ Consistent circle := by
  refine ⟨circle_ok, ?_, ?_⟩
  · unfold checkComposite
    rw [if_neg (by decide)]
    have h : leadGraph circle = [(0, 1), (1, 0), (1, 2), (2, 0), (2, 1)] := by decide
    have h3 : circle.leads.length = 3 := rfl
    have h1 := numComponents_pos (k := 3) (by omega) [(0, 1), (1, 0), (1, 2), (2, 0), (2, 1)]
    have h2 : numComponents 3 [(0, 1), (1, 0), (1, 2), (2, 0), (2, 1)] ≤ 1 := by
      rw [numComponents_eq, show 1 = ({0} : Finset ℕ).card from rfl]
      apply Finset.card_le_card
      intro i hi
      simp only [smallest, Finset.mem_filter, Finset.mem_range] at hi
      rw [Finset.mem_singleton]
      by_contra hne
      have : i = 1 ∨ i = 2 := by omega
      rcases this with rfl | rfl
      · exact hi.2 0 (by omega) (.single (show (1, 0) ∈ both _ from .inl (by simp)))
      · exact hi.2 0 (by omega) (.single (show (2, 0) ∈ both _ from .inl (by simp)))
    rw [h, h3, beq_iff_eq]
    simp only [List.length_cons, List.length_nil]
    omega
  · intro hc
    let f : ℕ → ℕ → Multiplicative ℤ := fun i j =>
      if i = 0 ∧ j = 1 then Multiplicative.ofAdd 1 else if i = 1 ∧ j = 0 then (Multiplicative.ofAdd 1)⁻¹ else 1
    have hf : ∀ i j, f j i = (f i j)⁻¹ := by
      intro i j
      simp only [f]
      by_cases h : i = 0 ∧ j = 1
      · obtain ⟨rfl, rfl⟩ := h; rfl
      · by_cases h' : i = 1 ∧ j = 0
        · obtain ⟨rfl, rfl⟩ := h'; rfl
        · have h2 : ¬ (j = 0 ∧ i = 1) := by omega
          have h3 : ¬ (j = 1 ∧ i = 0) := by omega
          rw [if_neg h, if_neg h', if_neg h2, if_neg h3, inv_one]
    obtain ⟨φ, hφ⟩ := hc _ f hf (by
      intro p hp
      have hp : p < 3 := hp
      interval_cases p
      · refine ⟨fun i => if i = 1 then Multiplicative.ofAdd 1 else 1, ?_⟩
        have key : ∀ e ∈ circle.extended, max (circle.patch e.1) (circle.patch e.2) = 0 →
            f e.1 e.2 = (if e.1 = 1 then Multiplicative.ofAdd 1 else 1)⁻¹ * (if e.2 = 1 then Multiplicative.ofAdd 1 else 1) := by
          decide
        exact fun i j h => key (i, j) h.1 h.2
      · refine ⟨fun i => 1, ?_⟩
        have key : ∀ e ∈ circle.extended, max (circle.patch e.1) (circle.patch e.2) = 1 → f e.1 e.2 = 1⁻¹ * 1 := by decide
        exact fun i j h => key (i, j) h.1 h.2
      · refine ⟨fun i => 1, ?_⟩
        have key : ∀ e ∈ circle.extended, max (circle.patch e.1) (circle.patch e.2) = 2 → f e.1 e.2 = 1⁻¹ * 1 := by decide
        exact fun i j h => key (i, j) h.1 h.2)
    have k : ∀ i j, (i, j) ∈ circle.extended ∧ (circle.patch i ≠ -1 ∨ circle.patch j ≠ -1) ∧ f i j = 1 → φ j = φ i := by
      rintro i j ⟨h1, h2, h3⟩
      have := hφ i j ⟨h1, h2⟩
      rw [h3] at this
      exact (eq_of_inv_mul_eq_one this.symm).symm
    have e1 := k 1 6 (by decide)
    have e2 := k 6 7 (by decide)
    have e3 := k 7 2 (by decide)
    have e4 := k 2 8 (by decide)
    have e5 := k 8 9 (by decide)
    have e6 := k 9 0 (by decide)
    have e7 := hφ 0 1 ⟨by decide, by decide⟩
    rw [e6, e5, e4, e3, e2, e1, inv_mul_cancel] at e7
    exact absurd (congrArg Multiplicative.toAdd e7) (by decide)

/-! ## Systems without interior links -/

section
variable (components : List (ℕ × ℕ) → ℕ → ℕ) (mst : (ℕ × ℕ → ℕ) → List (ℕ × ℕ))
variable (pick : List ℕ → (ℕ → ℝ) → ℕ) (choose : List ℕ → ℕ) (argsort : List ℝ → List ℕ) (argmin : List ℝ → ℕ)

/-- C150: a system whose reduced scattering region has no hopping at an interface site raises an exception (`IndexError`), and
so does a system that is rejected by the check. -/
theorem C150_exceptions {s : CSyst} (hs : CompositeOk s) {at_ : ℕ → ℕ → ℤ × ℕ} {V : Type} [AddCommGroup V] (pos : ℕ → V)
    (leadPos : ℕ → ℕ → V) (T : ℕ → V) (flux : List V → ℝ) (leadFlux : List (List V → ℝ))
    (h : checkComposite s = false ∨ ¬ HasInterior s) :
    peierlsComposite components mst pick choose argsort argmin s at_ pos leadPos T flux leadFlux = none := by
  have hl : loopsInComposite components mst pick choose argsort s = none := by
    unfold loopsInComposite
    split_ifs with hck
    · rfl
    · have hni : interiorLinks s.entries s.patch = [] := by
        by_contra hc
        rcases h with h | h
        · exact hck h
        · exact h ((hasInterior_iff hs).mpr hc)
      simp only [spanningTreeComposite]
      rw [if_pos hni]
      rfl
  unfold peierlsComposite
  rw [hl]
  rfl

/-- Disagreement: a single site with a lead is accepted by the check, there is no closed loop at all, and the gauge cannot be
computed. -/
theorem C150_counterexample_site {at_ : ℕ → ℕ → ℤ × ℕ} {V : Type} [AddCommGroup V] (pos : ℕ → V)
    (leadPos : ℕ → ℕ → V) (T : ℕ → V) (flux : List V → ℝ) (leadFlux : List (List V → ℝ)) :
    let s : CSyst := ⟨1, [], fun _ _ => 1, [stub [0] []]⟩
    CompositeOk s ∧ Separate s ∧ LeadsOk s ∧ Consistent s ∧ checkComposite s = true ∧
    peierlsComposite components mst pick choose argsort argmin s at_ pos leadPos T flux leadFlux = none := by
  intro s
  have hs : CompositeOk s := by
    constructor
    · constructor <;> decide
    · exact fun _ _ => zero_le_one
    · exact fun _ _ => rfl
    · intro p hp
      have hp : p < 1 := hp
      interval_cases p; exact stub_ok
    · intro p hp
      have hp : p < 1 := hp
      interval_cases p; exact fun _ _ => zero_le_one
    · intro p hp
      have hp : p < 1 := hp
      interval_cases p; exact fun _ _ => rfl
    · decide
    · decide
    · decide
    · intro p hp k hk
      have hp : p < 1 := hp
      interval_cases p
      have hk : k < 1 := hk
      interval_cases k
      exact ⟨0, by decide⟩
    · decide
    · intro p hp q hq hpq
      have hp : p < 1 := hp
      have hq : q < 1 := hq
      omega
  refine ⟨hs, by unfold Separate; decide, ?_, ?_, ?_, ?_⟩
  · intro p hp
    have hp : p < 1 := hp
    interval_cases p
    refine ⟨?_, by decide⟩
    unfold checkInfinite
    rw [if_neg (by decide), if_neg]
    rintro ⟨i, j, hi, hj, h⟩
    apply h
    have hi : i < 2 := hi
    have hj : j < 2 := hj
    interval_cases i <;> interval_cases j
    · exact .refl
    · exact .single (show (0, 1) ∈ ucLinks _ _ by decide)
    · exact .single (show (1, 0) ∈ ucLinks _ _ by decide)
    · exact .refl
  · apply consistent_star 0 fun _ => 0
    decide
  · unfold checkComposite
    rw [if_neg (by decide)]
    have h : leadGraph s = [] := by decide
    rw [h, beq_iff_eq, numComponents_eq, smallest_nil]
    simp
  · apply C150_exceptions components mst pick choose argsort argmin hs
    right
    rintro ⟨x, y, z, h1, _, h3, h4, _⟩
    have key : ∀ e ∈ s.extended, ¬ (s.patch e.1 = -1 ∧ s.patch e.2 = -1) := by decide
    exact key _ h1 ⟨h3, h4⟩

end

end Kwant.Gauge
