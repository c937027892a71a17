import Mathlib.Tactic.IntervalCases
import Verif.Continuum.Build
import Verif.Continuum.Limit
import Mathlib.Data.String.Basic
import Mathlib.Analysis.SpecialFunctions.Trigonometric.Basic

/-! C134: dispersion.  C135: which arguments `discretize` accepts. -/

set_option linter.unusedSectionVars false

namespace Kwant.Continuum
open Matrix

variable {m : ℕ}

/-! ### Plane waves -/

/-- A plane wave. -/
noncomputable def planeWave (q : Pos) : Pos → ℂ := fun x => Complex.exp (Complex.I * ∑ c, ((q c * x c : ℝ) : ℂ))

/-- What a summand with constant functions multiplies a plane wave with: `k_c` is `sin(q_c s_c) / s_c`. -/
noncomputable def symbol (kpar : Axis → ℂ) (coords : List Axis) (s q : Pos) : Term → ℂ
  | [] => 1
  | .mom c e :: t => (if c ∈ coords then ((Real.sin (q c * s c) / s c : ℝ) : ℂ) ^ e.toNat else kpar c ^ e) * symbol kpar coords s q t
  | .fn g :: t => g 0 * symbol kpar coords s q t

/-- All the functions are constant. -/
def ConstTerm (t : Term) : Prop := ∀ g, Factor.fn g ∈ t → ∀ x, g x = g 0

theorem planeWave_add (q x : Pos) (c : Axis) (s : ℝ) : planeWave q (x + Pi.single c s) = Complex.exp (Complex.I * (q c * s : ℝ)) * planeWave q x := by
  unfold planeWave
  rw [← Complex.exp_add]
  congr 1
  have : ∑ d, ((q d * (x + Pi.single c s : Pos) d : ℝ) : ℂ) = ∑ d, ((q d * x d : ℝ) : ℂ) + ((q c * s : ℝ) : ℂ) := by
    have : ∀ d, ((q d * (x + Pi.single c s : Pos) d : ℝ) : ℂ) = ((q d * x d : ℝ) : ℂ) + if d = c then ((q c * s : ℝ) : ℂ) else 0 := by
      intro d
      by_cases hd : d = c
      · subst hd; simp; ring
      · simp [hd]
    simp only [this, Finset.sum_add_distrib]
    simp
  rw [this]; ring

theorem kDisc_planeWave (q : Pos) (c : Axis) (s : ℝ) (a : ℂ) :
    kDisc c s (fun x => a * planeWave q x) = fun x => (((Real.sin (q c * s) / s : ℝ) : ℂ) * a) * planeWave q x := by
  funext x
  unfold kDisc
  beta_reduce
  rw [sub_eq_add_neg x, ← Pi.single_neg, planeWave_add, planeWave_add]
  have h : Complex.exp (Complex.I * (q c * s : ℝ)) - Complex.exp (Complex.I * (q c * -s : ℝ)) = 2 * Complex.I * ((Real.sin (q c * s) : ℝ) : ℂ) := by
    rw [Complex.ofReal_sin, mul_comm Complex.I, mul_comm Complex.I]
    have h1 := Complex.two_sin (((q c * s : ℝ)) : ℂ)
    have h2 : (((q c * -s : ℝ)) : ℂ) = -((q c * s : ℝ) : ℂ) := by push_cast; ring
    rw [h2]
    have h3 : 2 * Complex.I * Complex.sin ((q c * s : ℝ) : ℂ) = Complex.I * (2 * Complex.sin ((q c * s : ℝ) : ℂ)) := by ring
    rw [h3, h1, ← mul_assoc, mul_comm Complex.I, mul_assoc, Complex.I_mul_I]; ring
  have e : a * (Complex.exp (Complex.I * (q c * s : ℝ)) * planeWave q x) - a * (Complex.exp (Complex.I * (q c * -s : ℝ)) * planeWave q x) =
      a * planeWave q x * (2 * Complex.I * ((Real.sin (q c * s) : ℝ) : ℂ)) := by rw [← h]; ring
  rw [e]
  push_cast
  by_cases hs : (s : ℂ) = 0
  · simp [hs]
  · field_simp
    rw [Complex.I_sq]; ring

theorem kDisc_iter (q : Pos) (c : Axis) (s : ℝ) (n : ℕ) (a : ℂ) :
    (kDisc c s)^[n] (fun x => a * planeWave q x) = fun x => (((Real.sin (q c * s) / s : ℝ) : ℂ) ^ n * a) * planeWave q x := by
  induction n generalizing a with
  | zero => simp
  | succ n ih =>
    rw [Function.iterate_succ_apply, kDisc_planeWave, ih]
    funext x; rw [pow_succ]; ring

theorem discOp_planeWave (kpar : Axis → ℂ) (coords : List Axis) (s q : Pos) (t : Term) (ht : ConstTerm t) :
    discOp kpar coords s t (planeWave q) = fun x => symbol kpar coords s q t * planeWave q x := by
  induction t with
  | nil => funext x; simp [discOp, symbol]
  | cons f t ih =>
    have h := ih fun g hg => ht g (List.mem_cons_of_mem _ hg)
    cases f with
    | mom c e =>
      simp only [discOp, symbol]
      split
      · rw [h, kDisc_iter]
      · rw [h]; funext x; ring
    | fn g =>
      simp only [discOp, symbol, h]
      funext x; rw [ht g (by simp) x]; ring

/-- C134.  The dispersion relation of a discretized Hamiltonian with constant coefficients: plane waves are eigenfunctions, and `k_c` has been replaced by `sin(q_c s_c) / s_c`
where `s_c` is the grid spacing, or half of it in summands with an even number of `k_c`. -/
theorem dispersion (kpar : Axis → ℂ) (coords : List Axis) (hnd : coords.Nodup) (e : Expr) (he : ∀ t ∈ e, ConstTerm t) (a q x : Pos) :
    ((discretizeExpression kpar coords e).map fun p => p.2 a x * planeWave q (gridAt coords p.1 a x)).sum =
      (e.map fun t => symbol kpar coords (stepOf t a) q t).sum * planeWave q x := by
  rw [(expression_spec kpar coords hnd e).2.1, ← List.sum_map_mul_right]
  congr 1
  apply List.map_congr_left
  intro t ht
  rw [discOp_planeWave kpar coords _ q t (he t ht)]

/-- C134, for `k_c ** 2`: the energy is `(2 - 2 cos(q a)) / a ** 2`. -/
theorem dispersion_square (kpar : Axis → ℂ) (c : Axis) (a q x : Pos) :
    ((discretizeExpression kpar [c] [[.mom c 2]]).map fun p => p.2 a x * planeWave q (gridAt [c] p.1 a x)).sum =
      (((2 - 2 * Real.cos (q c * a c)) / a c ^ 2 : ℝ) : ℂ) * planeWave q x := by
  rw [dispersion kpar [c] (by simp) _ (by intro t ht g hg; simp only [List.mem_singleton] at ht; subst ht; simp at hg)]
  congr 1
  have hd : degree c [.mom c 2] = 2 := by simp [degree]
  simp only [List.map_cons, List.map_nil, List.sum_cons, List.sum_nil, add_zero, symbol, List.mem_singleton, if_true, mul_one, stepOf, hd, even_two]
  have h2 : (2 : ℤ).toNat = 2 := rfl
  rw [h2, ← Complex.ofReal_pow]
  congr 1
  have h3 : Real.cos (q c * a c) = 1 - 2 * Real.sin (q c * (a c / 2)) ^ 2 := by
    have : q c * a c = 2 * (q c * (a c / 2)) := by ring
    rw [this, Real.cos_two_mul, Real.sin_sq]; ring
  rw [h3]
  by_cases h0 : a c = 0
  · simp [h0]
  · field_simp; ring

/-! ### Errors -/

/-- C135.  Symbols with the names of the grid spacings are refused. -/
theorem symbolic_reserved (kpar : Axis → ℂ) (atoms : List String) (ham : Fin m → Fin m → Expr) (coords : Option (List String))
    (h : "a_x" ∈ atoms ∨ "a_y" ∈ atoms ∨ "a_z" ∈ atoms) : discretizeSymbolic kpar atoms ham coords = .error .type := by
  unfold discretizeSymbolic
  rw [if_pos]
  rw [List.any_eq_true]
  rcases h with h | h | h
  · exact ⟨_, h, by decide⟩
  · exact ⟨_, h, by decide⟩
  · exact ⟨_, h, by decide⟩

/-- C135.  Without the argument `coords`, the coordinates are those of the momentum operators that occur, sorted; none is an error. -/
theorem coords_default (atoms : List String) :
    readCoords atoms none = if "k_x" ∉ atoms ∧ "k_y" ∉ atoms ∧ "k_z" ∉ atoms then .error .value
      else .ok ((if "k_x" ∈ atoms then ["x"] else []) ++ (if "k_y" ∈ atoms then ["y"] else []) ++ (if "k_z" ∈ atoms then ["z"] else [])) := by
  unfold readCoords
  simp only [List.filter_cons, List.filter_nil, List.contains_iff_mem]
  rw [show "k_" ++ "x" = "k_x" by decide, show "k_" ++ "y" = "k_y" by decide, show "k_" ++ "z" = "k_z" by decide]
  by_cases hx : "k_x" ∈ atoms <;> by_cases hy : "k_y" ∈ atoms <;> by_cases hz : "k_z" ∈ atoms <;> simp [hx, hy, hz]

/-- C135.  An explicit `coords` is accepted if and only if it is not empty, sorted, and made of substrings of "xyz"; then it is used unchanged. -/
theorem coords_explicit (atoms l : List String) :
    (readCoords atoms (some l) = .ok l ↔ l ≠ [] ∧ l.Pairwise (· ≤ ·) ∧ ∀ c ∈ l, inXyz c = true) ∧
    (readCoords atoms (some l) ≠ .ok l → readCoords atoms (some l) = .error .value) := by
  have hsort : l = l.mergeSort (fun a b => decide (a ≤ b)) ↔ l.Pairwise (· ≤ ·) := by
    constructor
    · intro h
      rw [h]
      have := List.pairwise_mergeSort (le := fun a b : String => decide (a ≤ b)) (by intro a b c; simpa using fun h h' => le_trans h h')
        (by intro a b; simpa using le_total a b) l
      exact this.imp (by simp)
    · intro h
      exact (List.mergeSort_of_pairwise (h.imp (by simp))).symm
  unfold readCoords
  by_cases h1 : l = l.mergeSort (fun a b => decide (a ≤ b))
  · by_cases h2 : l.any (fun c => !inXyz c) = true
    · have h2' : ¬ ∀ c ∈ l, inXyz c = true := by
        intro hall
        obtain ⟨c, hc, hn⟩ := List.any_eq_true.mp h2
        simp [hall c hc] at hn
      have h1' : ¬ l ≠ l.mergeSort (fun a b => decide (a ≤ b)) := not_not.mpr h1
      simp only [if_neg h1', if_pos h2]
      simp [h2']
    · have h2' : ∀ c ∈ l, inXyz c = true := by
        intro c hc
        by_contra hn
        exact h2 (List.any_eq_true.mpr ⟨c, hc, by simpa using hn⟩)
      have h1' : ¬ l ≠ l.mergeSort (fun a b => decide (a ≤ b)) := not_not.mpr h1
      simp only [if_neg h1', if_neg h2]
      by_cases h3 : l.length = 0
      · rw [List.length_eq_zero_iff] at h3; subst h3; simp
      · have h3' : l ≠ [] := fun e => h3 (by simp [e])
        simp only [if_neg h3]
        exact ⟨⟨fun _ => ⟨h3', hsort.mp h1, h2'⟩, fun _ => by trivial⟩, fun h => absurd rfl h⟩
  · simp only [ne_eq, h1, not_false_iff, if_true]
    constructor
    · constructor
      · intro h; cases h
      · rintro ⟨-, h, -⟩; exact absurd (hsort.mpr h) h1
    · intro _; trivial

theorem entry_scaledEye (n : ℕ) (s : ℝ) (i j : ℕ) (hi : i < n) (hj : j < n) : entry (scaledEye n s) i j = if i = j then s else 0 := by
  unfold entry scaledEye
  simp [hi, hj]

theorem gridOk_scaledEye (n : ℕ) (s : ℝ) : gridOk (scaledEye n s) n = true := by
  unfold gridOk
  have h1 : (scaledEye n s).length = n := by simp [scaledEye]
  have h2 : ((scaledEye n s).all fun r => r.length == n) = true := by
    rw [List.all_eq_true]; intro r hr
    unfold scaledEye at hr
    obtain ⟨i, rfl⟩ := (List.mem_ofFn).mp hr
    simp
  rw [h2, h1]
  simp only [beq_self_eq_true, if_true, Bool.true_and, decide_eq_true_eq]
  intro i hi j hj hij
  rw [entry_scaledEye n s i j hi hj, if_neg hij]

/-- C135.  `build_discretized` with sorted coordinates, a number (or nothing) for the grid and a dict with an onsite term succeeds: the lattice has this spacing in all directions
(1 by default) and no offset. -/
theorem build_scalar (xpar : Pos) (tb : List (List ℤ × (Pos → Pos → Matrix (Fin m) (Fin m) ℂ))) (coords : List Axis) (hne : coords ≠ [])
    (hs : coords.Pairwise (· ≤ ·)) (hz : List.replicate coords.length 0 ∈ tb.map Prod.fst) (g : Option ℝ) :
    (∃ T, buildDiscretized xpar tb coords (g.map .scalar) none = .ok T ∧ T.spacing = (fun _ => g.getD 1) ∧ T.offset = 0) ∧
    (∃ T, buildDiscretized xpar tb coords none g = .ok T ∧ T.spacing = (fun _ => g.getD 1) ∧ T.offset = 0) := by
  have hlen : ¬ coords.length = 0 := fun e => hne (List.length_eq_zero_iff.mp e)
  have hsort : coords.mergeSort (fun a b => decide (a ≤ b)) = coords := List.mergeSort_of_pairwise (hs.imp (by simp))
  have hfind : ∃ o, tb.find? (fun p => p.1 = List.replicate coords.length 0) = some o := by
    obtain ⟨p, hp, he⟩ := List.mem_map.mp hz
    rw [← Option.isSome_iff_exists, List.find?_isSome]
    exact ⟨p, hp, by simpa using he⟩
  obtain ⟨o, ho⟩ := hfind
  have hmain : ∀ (gr : Option Grid) (gs : Option ℝ) (s : ℝ), ¬ (gr.isSome = true ∧ gs.isSome = true) → chosenGrid gr gs = .scalar s →
      ∃ T, buildDiscretized xpar tb coords gr gs = .ok T ∧ T.spacing = (fun _ => s) ∧ T.offset = 0 := by
    intro gr gs s h1 h2
    unfold buildDiscretized
    dsimp only
    rw [if_neg hlen, if_neg h1, hsort, if_neg (by simp), h2]
    simp only [latticeOf, gridOk_scaledEye, ho, Bool.true_eq_false, if_false, ne_eq, not_true, and_false]
    refine ⟨_, rfl, ?_, ?_⟩
    · funext i; simp only; rw [entry_scaledEye _ _ _ _ i.2 i.2, if_pos rfl]
    · funext i; simp
  constructor
  · cases g with
    | none => exact hmain _ _ 1 (by simp) rfl
    | some s => exact hmain _ _ s (by simp) rfl
  · cases g with
    | none => exact hmain _ _ 1 (by simp) rfl
    | some s => exact hmain _ _ s (by simp) rfl

/-- C132, C135.  `build_discretized` with a lattice that has orthogonal primitive vectors along the coordinates succeeds: sites of the template are where the lattice has them, and the spacing in every
direction is the length of the primitive vector of this direction. -/
theorem build_lattice (xpar : Pos) (tb : List (List ℤ × (Pos → Pos → Matrix (Fin m) (Fin m) ℂ))) (coords : List Axis) (hne : coords ≠ [])
    (hs : coords.Pairwise (· ≤ ·)) (hz : List.replicate coords.length 0 ∈ tb.map Prod.fst) (prim : List (List ℝ)) (off : List ℝ) (no : Option ℕ) (hno : no = none ∨ no = some m)
    (hl : prim.length = coords.length) (hr : ∀ r ∈ prim, r.length = coords.length) (hdiag : ∀ i < coords.length, ∀ j < coords.length, i ≠ j → (prim.getD i []).getD j 0 = 0) :
    ∃ T, buildDiscretized xpar tb coords (some (.lat prim off no)) none = .ok T ∧ (∀ i, T.spacing i = (prim.getD i []).getD i 0) ∧
      ∀ s i, T.pos s i = ∑ j : Fin coords.length, (s j : ℝ) * (prim.getD j []).getD i 0 + off.getD i 0 := by
  have hlen : ¬ coords.length = 0 := fun e => hne (List.length_eq_zero_iff.mp e)
  have hsort : coords.mergeSort (fun a b => decide (a ≤ b)) = coords := List.mergeSort_of_pairwise (hs.imp (by simp))
  have hfind : ∃ o, tb.find? (fun p => p.1 = List.replicate coords.length 0) = some o := by
    obtain ⟨p, hp, he⟩ := List.mem_map.mp hz
    rw [← Option.isSome_iff_exists, List.find?_isSome]
    exact ⟨p, hp, by simpa using he⟩
  obtain ⟨o, ho⟩ := hfind
  have hg : gridOk prim coords.length = true := by
    have hall : (prim.all fun r => r.length == coords.length) = true := by
      rw [List.all_eq_true]; intro r h; rw [hr r h]; simp
    unfold gridOk
    rw [hall, hl]
    simpa [entry] using hdiag
  have hn : ¬ (no ≠ none ∧ no ≠ some m) := by rcases hno with h | h <;> simp [h]
  unfold buildDiscretized
  dsimp only
  rw [if_neg hlen, if_neg (by simp), hsort, if_neg (by simp)]
  simp only [chosenGrid, latticeOf, hg, ho, Bool.true_eq_false, if_false, if_neg hn]
  refine ⟨_, rfl, fun i => rfl, fun s i => ?_⟩
  simp only [Template.pos]
  rw [Finset.sum_eq_single i]
  · rfl
  · intro j _ hj
    rw [hdiag j j.2 i i.2 (fun h => hj (Fin.ext h)), mul_zero]
  · simp

/-- A rectangular lattice meets the hypotheses. -/
example (xpar : Pos) (tb : List (List ℤ × (Pos → Pos → Matrix (Fin m) (Fin m) ℂ))) (hz : [0, 0] ∈ tb.map Prod.fst) :
    ∃ T, buildDiscretized xpar tb [0, 1] (some (.lat [[2, 0], [0, 3]] [1, 1] none)) none = .ok T := by
  obtain ⟨T, h, -⟩ := build_lattice xpar tb [0, 1] (by simp) (by decide) hz [[2, 0], [0, 3]] [1, 1] none (.inl rfl) rfl (by simp) (by
    intro i hi j hj hij
    simp only [List.length_cons, List.length_nil] at hi hj
    interval_cases i <;> interval_cases j <;> simp_all)
  exact ⟨T, h⟩

/-- C135.  What `build_discretized` refuses: no coordinates, unsorted coordinates, both `grid` and `grid_spacing`, a square matrix of primitive vectors that is not diagonal or has
another dimension, and a wrong number of orbitals. -/
theorem build_refused (xpar : Pos) (tb : List (List ℤ × (Pos → Pos → Matrix (Fin m) (Fin m) ℂ))) (coords : List Axis) (grid : Option Grid) (gs : Option ℝ)
    (h : coords = [] ∨ ¬ coords.Pairwise (· ≤ ·) ∨ (grid ≠ none ∧ gs ≠ none) ∨
      (∃ prim off no, grid = some (.lat prim off no) ∧ (∀ r ∈ prim, r.length = prim.length) ∧
        (prim.length ≠ coords.length ∨ (∃ i < prim.length, ∃ j < prim.length, i ≠ j ∧ entry prim i j ≠ 0) ∨ ∃ n, no = some n ∧ n ≠ m))) :
    buildDiscretized xpar tb coords grid gs = .error .value := by
  unfold buildDiscretized
  dsimp only
  by_cases h1 : coords.length = 0
  · rw [if_pos h1]
  rw [if_neg h1]
  by_cases h2 : grid.isSome = true ∧ gs.isSome = true
  · rw [if_pos h2]
  rw [if_neg h2]
  by_cases h3 : coords ≠ coords.mergeSort (fun a b => decide (a ≤ b))
  · rw [if_pos h3]
  rw [if_neg h3]
  by_cases h4 : gridOk (latticeOf coords.length m (chosenGrid grid gs)).1 coords.length = false
  · rw [if_pos h4]
  rw [if_neg h4]
  by_cases h5 : (latticeOf coords.length m (chosenGrid grid gs)).2.2 ≠ none ∧ (latticeOf coords.length m (chosenGrid grid gs)).2.2 ≠ some m
  · rw [if_pos h5]
  exfalso
  rcases h with rfl | h | h | ⟨prim, off, no, rfl, hsq, h⟩
  · exact h1 rfl
  · apply h
    rw [not_not] at h3
    rw [h3]
    have := List.pairwise_mergeSort (le := fun a b : Axis => decide (a ≤ b)) (by intro a b c; simpa using fun h h' => le_trans h h')
      (by intro a b; simpa using le_total a b) coords
    exact this.imp (by simp)
  · exact h2 ⟨by simpa [Option.isSome_iff_ne_none] using h.1, by simpa [Option.isSome_iff_ne_none] using h.2⟩
  · simp only [chosenGrid, latticeOf] at h4 h5
    rw [Bool.not_eq_false] at h4
    unfold gridOk at h4
    rw [Bool.and_eq_true, beq_iff_eq] at h4
    obtain ⟨h6, h7⟩ := h4
    have hall : (prim.all fun r => r.length == coords.length) = true := by
      rw [List.all_eq_true]; intro r hr; rw [hsq r hr, h6]; simp
    rw [hall] at h7
    simp only [if_true, decide_eq_true_eq] at h7
    rcases h with h | ⟨i, hi, j, hj, hij, hn⟩ | ⟨n, rfl, hn⟩
    · exact h h6
    · exact hn (h7 i (h6 ▸ hi) j (h6 ▸ hj) hij)
    · exact h5 ⟨by simp, by simpa using hn⟩

/-- C135, an observation: a lattice with the single primitive vector (1, 1) in the plane passes the check of the grid of a Hamiltonian with the one coordinate x, though the distance
between its sites is not 1 (numpy broadcasts the comparison of a 1x2 matrix with a 1x1 one). -/
theorem build_oblique_accepted (xpar : Pos) (tb : List (List ℤ × (Pos → Pos → Matrix (Fin m) (Fin m) ℂ))) (hz : [0] ∈ tb.map Prod.fst) :
    ∃ T, buildDiscretized xpar tb [0] (some (.lat [[1, 1]] [] none)) none = .ok T ∧ T.spacing = fun _ => 1 := by
  have hfind : ∃ o, tb.find? (fun p => p.1 = List.replicate ([0] : List Axis).length 0) = some o := by
    obtain ⟨p, hp, he⟩ := List.mem_map.mp hz
    rw [← Option.isSome_iff_exists, List.find?_isSome]
    exact ⟨p, hp, by simpa using he⟩
  obtain ⟨o, ho⟩ := hfind
  have hg : gridOk [[1, 1]] ([0] : List Axis).length = true := by
    simp [gridOk, entry]
  have hs : ([0] : List Axis).mergeSort (fun a b => decide (a ≤ b)) = [0] := List.mergeSort_of_pairwise (by simp)
  unfold buildDiscretized
  dsimp only
  rw [if_neg (by simp), if_neg (by simp), hs, if_neg (by simp)]
  simp only [chosenGrid, latticeOf, hg, ho, Bool.true_eq_false, if_false, ne_eq, not_true, false_and]
  refine ⟨_, rfl, ?_⟩
  funext i
  simp [entry]

/-- C135, an observation: a momentum with a negative exponent is silently dropped, `1/k_x` is discretized like 1. -/
theorem negative_power_dropped (kpar : Axis → ℂ) (coords : List Axis) (c : Axis) (hc : c ∈ coords) (e : ℤ) (he : e ≤ 0) (t : Term) :
    discretizeSummand kpar coords (.mom c e :: t) = discretizeSummand kpar coords t := by
  unfold discretizeSummand
  rw [List.foldr_cons]
  simp only [applyFactor, if_pos hc, Int.toNat_of_nonpos he, Function.iterate_zero, id]

/-! ### discretize -/

theorem mapM_axisOf (l : List String) (cs : List Axis) (h : l.mapM axisOf = some cs) : l.map axisOf = cs.map some := by
  induction l generalizing cs with
  | nil => simp at h; subst h; rfl
  | cons a l ih =>
    rw [List.mapM_cons] at h
    simp only [Option.bind_eq_bind, Option.bind_eq_some_iff, Option.pure_def, Option.some.injEq] at h
    obtain ⟨c, hc, cs', hcs, rfl⟩ := h
    rw [List.map_cons, List.map_cons, hc, ih cs' hcs]

/-- C132, for `discretize` itself: if it returns a template, then the template is the one of `build_operator` and `build_hermitian` for the coordinates `cs`: the given ones, or those of
the momentum operators that occur. -/
theorem discretize_ok (kpar : Axis → ℂ) (xpar : Pos) (atoms : List String) (ham : Fin m → Fin m → Expr) (coords : Option (List String)) (grid : Option Grid) (gs : Option ℝ)
    (r : Σ n, Template n m) (h : discretize kpar xpar atoms ham coords grid gs = .ok r) :
    ∃ (l : List String) (cs : List Axis) (T : Template cs.length m), r = ⟨cs.length, T⟩ ∧ readCoords atoms coords = .ok l ∧ l.map axisOf = cs.map some ∧
      buildDiscretized xpar (keepWanted (allHoppings kpar cs ham)) cs grid gs = .ok T := by
  unfold discretize at h
  split at h
  · cases h
  · next tb l hd =>
    split at h
    · cases h
    · next cs hcs =>
      split at h
      · cases h
      · next T hT =>
        injection h with h
        unfold discretizeSymbolic at hd
        split at hd
        · cases hd
        · split at hd
          · cases hd
          · next l' hl =>
            split at hd
            · next cs' hcs' =>
              injection hd with hd
              injection hd with hd1 hd2
              subst hd2
              rw [hcs] at hcs'
              injection hcs' with hcs'
              subst hcs'
              subst hd1
              exact ⟨l', cs, T, h.symm, hl, mapM_axisOf _ _ hcs, hT⟩
            · next hn =>
              split at hd
              · cases hd
              · injection hd with hd
                injection hd with hd1 hd2
                subst hd2
                rw [hcs] at hn; cases hn

end Kwant.Continuum
