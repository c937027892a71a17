import Verif.Qsymm.RoundTrip
import Mathlib.Tactic.NormNum
import Mathlib.Tactic.FinCases

/-!
# C151, C152: examples and counterexamples
-/
set_option linter.unusedSectionVars false

namespace Kwant.Qsymm
open Complex

/-! ## A dimerized chain -/

/-- Matrix with one nonzero element. -/
def single (a b : ℕ) (v : ℂ) : Mat := fun i j => if i = a ∧ j = b then v else 0

/-- A symbol. -/
def symbol (s : String) : Coeff := ⟨[s], fun x => x s⟩

theorem symbol_affine (s : String) : (symbol s).Affine := ⟨0, fun _ => 1, fun x => by simp [symbol]⟩

/-- Chain with two atoms per cell at 0 and 1/4, a staggered potential `m`, and hoppings `v`, `w`. -/
noncomputable def chain : Input 1 where
  model := [⟨0, symbol "m", single 0 0 1 + single 1 1 (-1)⟩,
    ⟨fun _ => 1/4, symbol "v", single 0 1 1⟩, ⟨fun _ => -1/4, symbol "v", single 1 0 1⟩,
    ⟨fun _ => -3/4, symbol "w", single 0 1 I⟩, ⟨fun _ => 3/4, symbol "w", single 1 0 (-I)⟩]
  n := 2
  norbs := fun _ => 1
  lat := fun _ _ => 1
  coord := fun a _ => if a = 0 then 0 else 1/4
  order := [0, 1]

theorem chain_ok : chain.Ok where
  lat := by
    rw [Fintype.linearIndependent_iff]
    intro g h i
    have := congrFun h 0
    simp [chain] at this
    rw [Subsingleton.elim i 0]; exact this
  order := by
    have : chain.order = List.range chain.n := rfl
    rw [this]
  coeffs := by
    intro e he
    simp only [chain, List.mem_cons, List.not_mem_nil, or_false] at he
    rcases he with rfl | rfl | rfl | rfl | rfl <;> exact affine_ok (symbol_affine _)

theorem chain_affine : ∀ e ∈ chain.model, e.coeff.Affine := by
  intro e he
  simp only [chain, List.mem_cons, List.not_mem_nil, or_false] at he
  rcases he with rfl | rfl | rfl | rfl | rfl <;> exact symbol_affine _

theorem chain_range (a : ℕ) (h : a < 2) : chain.range a = (a, 1) := by
  have : a = 0 ∨ a = 1 := by omega
  rcases this with rfl | rfl <;> rfl

theorem quarter_ne {q : ℝ} (h : q ≠ 0) : (fun _ : Fin 1 => q) ≠ 0 := fun hc => h (congrFun hc 0)

theorem single_hop (q : ℝ) (s : String) {a b a' b' : ℕ} (ha : a < 2) (hb : b < 2) (v : ℂ) (h : a ≠ a' ∨ b ≠ b') :
    chain.hop ⟨fun _ => q, symbol s, single a' b' v⟩ a b = 0 := by
  funext i j
  unfold Input.hop block
  rw [chain_range a ha, chain_range b hb]
  simp only
  split_ifs with hc
  · have : ¬ (a + i = a' ∧ b + j = b') := by omega
    simp only [single, if_neg this, Pi.zero_apply]
  · rfl

theorem chain_succeeds : (modelToBuilder chain).isSome := by
  rw [C152_succeeds]
  have hn : chain.n = 2 := rfl
  rw [hn]
  have hs : ∀ (q : ℝ) (s : String) (a' b' : ℕ) (v : ℂ) (R : ℤ), q ≠ 0 → chain.disp a' (fun _ => R) b' = (fun _ => q) →
      ∀ a < 2, ∀ b < 2, GoodPair chain ⟨fun _ => q, symbol s, single a' b' v⟩ a b := by
    intro q s a' b' v R hq hR a ha b hb
    by_cases h : a ≠ a' ∨ b ≠ b'
    · exact .inl (single_hop q s ha hb v h)
    · rw [not_or, not_not, not_not] at h
      obtain ⟨rfl, rfl⟩ := h
      exact .inr (.inr ⟨quarter_ne hq, _, hR⟩)
  intro e he
  simp only [chain, List.mem_cons, List.not_mem_nil, or_false] at he
  rcases he with rfl | rfl | rfl | rfl | rfl
  · intro a ha b hb
    by_cases hab : a = b
    · exact .inr (.inl ⟨rfl, .inl hab⟩)
    · left
      funext i j
      unfold Input.hop block
      rw [chain_range a ha, chain_range b hb]
      simp only
      split_ifs with hc
      · have h1 : ¬ (a + i = 0 ∧ b + j = 0) := by omega
        have h2 : ¬ (a + i = 1 ∧ b + j = 1) := by omega
        simp only [single, Pi.add_apply, if_neg h1, if_neg h2, add_zero, Pi.zero_apply]
      · rfl
  · exact hs _ _ _ _ _ 0 (by norm_num) (by funext i; simp [Input.disp, chain])
  · exact hs _ _ _ _ _ 0 (by norm_num) (by funext i; simp [Input.disp, chain]; norm_num)
  · exact hs _ _ _ _ _ (-1) (by norm_num) (by funext i; simp [Input.disp, chain]; norm_num)
  · exact hs _ _ _ _ _ 1 (by norm_num) (by funext i; simp [Input.disp, chain]; norm_num)

theorem chain_hermitian {x : Values} (hx : RealValues x) : HermitianModel chain.model x := by
  classical
  intro r i j
  have hneg : ∀ q : ℝ, ((fun _ : Fin 1 => -q) = -r) ↔ (fun _ : Fin 1 => q) = r := by
    intro q
    rw [show (fun _ : Fin 1 => -q) = -(fun _ => q) from rfl, neg_inj]
  have h1 := hneg (1/4)
  have h2 := hneg (-1/4)
  have h3 := hneg (3/4)
  have h4 := hneg (-3/4)
  rw [show -(1/4 : ℝ) = -1/4 by norm_num] at h1
  rw [show -(-1/4 : ℝ) = 1/4 by norm_num] at h2
  rw [show -(3/4 : ℝ) = -3/4 by norm_num] at h3
  rw [show -(-3/4 : ℝ) = 3/4 by norm_num] at h4
  have h0 : ((0 : Fin 1 → ℝ) = -r) ↔ (0 : Fin 1 → ℝ) = r := by rw [eq_comm, neg_eq_zero, eq_comm]
  simp only [component, chain, List.map_cons, List.map_nil, List.sum_cons, List.sum_nil, h0, h1, h2, h3, h4, map_add, map_zero,
    apply_ite (starRingEnd ℂ), map_mul, symbol, hx "m", hx "v", hx "w", single, Pi.add_apply, map_one, map_neg, conj_I]
  have c1 : (j = 0 ∧ i = 1) ↔ (i = 1 ∧ j = 0) := and_comm
  have c2 : (j = 1 ∧ i = 0) ↔ (i = 0 ∧ j = 1) := and_comm
  have c3 : (j = 0 ∧ i = 0) ↔ (i = 0 ∧ j = 0) := and_comm
  have c4 : (j = 1 ∧ i = 1) ↔ (i = 1 ∧ j = 1) := and_comm
  simp only [c1, c2, c3, c4, neg_neg]
  abel

/-- C152 applies to the chain: it comes back unchanged. -/
theorem chain_roundtrip {x : Values} (hx : RealValues x) : ∃ s m, modelToBuilder chain = some s ∧
    builderToModel s 1 true (fun _ => none) = some m ∧ ∀ k, ∀ i < 2, ∀ j < 2, evalModel m k x i j = evalEntries chain.model k x i j := by
  obtain ⟨s, hs⟩ := Option.isSome_iff_exists.mp chain_succeeds
  obtain ⟨m, hm, h⟩ := C152_same chain_ok chain_affine hs rfl hx ((C152_hermitian _ _).mp (chain_hermitian hx))
  exact ⟨s, m, hs, hm, h⟩

/-! ## What the conversions do not do -/

/-- One site with the onsite value `mu ^ 2`. -/
noncomputable def square : Syst 1 1 where
  sites := [0]
  norbs := fun _ => some 1
  pos := fun _ _ => 0
  periods := fun _ _ => 1
  onsites := [(0, .func ["mu"] fun args _ _ => (args.getD 0 0) ^ 2)]
  hops := []

/-- C151 counterexample: a value that is not affine in a parameter is converted without a warning to a wrong model: `mu ^ 2`
becomes `mu`. -/
theorem C151_nonlinear : square.Ok ∧ ∃ m, builderToModel square 1 true (fun _ => none) = some m ∧
    evalModel m 0 (fun _ => 2) 0 0 = 2 ∧ amplitude square (fun _ => 2) 0 0 0 0 0 = 4 := by
  classical
  refine ⟨⟨by simp [square], by simp [square], by simp [square]⟩, _, rfl, ?_, ?_⟩
  · have hne : ∀ m : Mat, m 0 0 ≠ 0 → m ≠ 0 := fun m h hc => h (by rw [hc]; rfl)
    simp only [square, List.flatMap_cons, List.flatMap_nil, List.map_nil, List.append_nil, valueToModel, functionToTerms]
    simp only [List.filter_cons, List.filter_nil, decide_true, if_true, List.map_cons, List.map_nil, List.cons_append, List.nil_append,
      List.flatMap_cons, List.flatMap_nil, List.append_nil, argument]
    simp only [evalModel, List.map_append, List.sum_append]
    have hsl : sliceOf [(0, 0, 1)] 0 = (0, 1) := by simp [sliceOf]
    rw [hsl]
    have e1 : setBlock (0, 1) (0, 1) ((fun _ _ => ([(1 : ℂ)].getD 0 0) ^ 2) -
        fun _ _ => ([if none = some "mu" then (1 : ℂ) else 0].getD 0 0) ^ 2) ≠ 0 := by
      apply hne
      simp [setBlock]
    have e2 : setBlock (0, 1) (0, 1) (fun _ _ => ([if none = some "mu" then (1 : ℂ) else 0].getD 0 0) ^ 2) = 0 := by
      funext i j
      simp [setBlock]
    unfold termToModel
    rw [if_neg e1, if_pos e2]
    simp [setBlock]
  · simp [amplitude, square, Val.eval]
    norm_num

/-- Two atoms, one lattice vector apart, with a hopping between neighboring cells such that the displacement is zero. -/
noncomputable def aligned : Input 1 where
  model := [⟨0, ⟨[], fun _ => 1⟩, single 0 1 1⟩, ⟨0, ⟨[], fun _ => 1⟩, single 1 0 1⟩]
  n := 2
  norbs := fun _ => 1
  lat := fun _ _ => 1
  coord := fun a _ => if a = 0 then 0 else 1
  order := [0, 1]

/-- C152 counterexample: a hopping between two sites of the lattice at the same position is refused if the coordinates of the
atoms differ by a lattice vector. -/
theorem C152_refused : modelToBuilder aligned = none ∧ ∀ e ∈ aligned.model, ∀ a < 2, ∀ b < 2,
    aligned.hop e a b ≠ 0 → ∃ R, aligned.disp a R b = e.r := by
  constructor
  · rw [← Option.not_isSome_iff_eq_none, C152_succeeds]
    intro h
    have := h _ (List.mem_cons_self ..) 0 (by decide) 1 (by decide)
    rcases this with h | ⟨_, h⟩ | ⟨h, _⟩
    · have := congrFun (congrFun h 0) 0
      simp [Input.hop, block, aligned, Input.range, single] at this
    · rcases h with h | h
      · omega
      · have := congrFun h 0
        simp [aligned] at this
    · exact h rfl
  · intro e he a ha b hb hne
    have ha : a = 0 ∨ a = 1 := by omega
    have hb : b = 0 ∨ b = 1 := by omega
    simp only [aligned, List.mem_cons, List.not_mem_nil, or_false] at he
    rcases he with rfl | rfl <;> rcases ha with rfl | rfl <;> rcases hb with rfl | rfl
    · exact ⟨0, by simp [Input.disp]⟩
    · exact ⟨fun _ => -1, by funext i; simp [Input.disp, aligned]⟩
    · exact ⟨fun _ => 1, by funext i; simp [Input.disp, aligned]⟩
    · exact ⟨0, by simp [Input.disp]⟩
    · exact ⟨0, by simp [Input.disp]⟩
    · exact ⟨fun _ => -1, by funext i; simp [Input.disp, aligned]⟩
    · exact ⟨fun _ => 1, by funext i; simp [Input.disp, aligned]⟩
    · exact ⟨0, by simp [Input.disp]⟩

/-- Two atoms at 1/2 and 0 with energies 1 and 2: the site at 0 is first in the builder. -/
noncomputable def swapped : Input 1 where
  model := [⟨0, ⟨[], fun _ => 1⟩, single 0 0 1 + single 1 1 2⟩]
  n := 2
  norbs := fun _ => 1
  lat := fun _ _ => 1
  coord := fun a _ => if a = 0 then 1/2 else 0
  order := [1, 0]

theorem swapped_ok : swapped.Ok where
  lat := chain_ok.lat
  order := List.Perm.swap 0 1 []
  coeffs := by
    intro e he
    simp only [swapped, List.mem_cons, List.not_mem_nil, or_false] at he
    subst he
    intro _ _ _; rfl

/-- C152 counterexample: the order of the orbitals is not kept. -/
theorem C152_order : ∃ s m, modelToBuilder swapped = some s ∧ builderToModel s 1 true (fun _ => none) = some m ∧
    ∀ k x, RealValues x → evalModel m k x 0 0 = 2 ∧ evalEntries swapped.model k x 0 0 = 1 := by
  have hsome : (modelToBuilder swapped).isSome := by
    rw [C152_succeeds]
    intro e he a ha b hb
    simp only [swapped, List.mem_cons, List.not_mem_nil, or_false] at he
    subst he
    have ha : a = 0 ∨ a = 1 := by have : a < 2 := ha; omega
    have hb : b = 0 ∨ b = 1 := by have : b < 2 := hb; omega
    by_cases hab : a = b
    · exact .inr (.inl ⟨rfl, .inl hab⟩)
    · left
      funext i j
      rcases ha with rfl | rfl <;> rcases hb with rfl | rfl
      · exact absurd rfl hab
      · simp [Input.hop, block, swapped, Input.range, single]; omega
      · simp [Input.hop, block, swapped, Input.range, single]; omega
      · exact absurd rfl hab
  obtain ⟨s, hs⟩ := Option.isSome_iff_exists.mp hsome
  have hmem : ∀ e ∈ swapped.model, e = ⟨0, ⟨[], fun _ => 1⟩, single 0 0 1 + single 1 1 2⟩ := by
    intro e he; simpa [swapped] using he
  have hev : ∀ k x i j, evalEntries swapped.model k x i j = single 0 0 1 i j + single 1 1 2 i j := by
    intro k x i j; simp [evalEntries, swapped]
  have haff : ∀ e ∈ swapped.model, e.coeff.Affine := by
    intro e he
    rw [hmem e he]
    exact ⟨1, 0, fun x => by simp⟩
  have hH : ∀ x, RealValues x → ∀ k i j, evalEntries swapped.model k x j i = (starRingEnd ℂ) (evalEntries swapped.model k x i j) := by
    intro x _ k i j
    rw [hev, hev]
    have c3 : (j = 0 ∧ i = 0) ↔ (i = 0 ∧ j = 0) := and_comm
    have c4 : (j = 1 ∧ i = 1) ↔ (i = 1 ∧ j = 1) := and_comm
    simp only [single, c3, c4, map_add, apply_ite (starRingEnd ℂ), map_one, map_zero, map_ofNat]
  obtain ⟨m, hm, -⟩ := C152_roundtrip swapped_ok haff hs (x := fun _ => 0) (fun q => map_zero _) (hH _ (fun q => map_zero _))
  obtain ⟨e1, e2, _, _⟩ := builder_sites hs
  refine ⟨s, m, hs, hm, fun k x hx => ⟨?_, ?_⟩⟩
  · obtain ⟨m', hm', h⟩ := C152_roundtrip swapped_ok haff hs hx (hH x hx)
    obtain rfl : m = m' := Option.some.inj (hm.symm.trans hm')
    have := h k 1 (by decide) 1 (by decide) 0 (by decide) 0 (by decide)
    have hst : s.start 1 = 0 := by simp [Syst.start, e1, swapped]
    have hst' : swapped.start 1 = 1 := by simp [Input.start, swapped]
    rw [hst, hst', hev] at this
    simpa [single] using this
  · rw [hev]; simp [single]

end Kwant.Qsymm
