import Verif.Continuum.Herm
import Mathlib.Algebra.BigOperators.Finprod
import Mathlib.Data.List.FinRange
import Mathlib.Data.List.NodupEquivFin

/-!
Model of kwant/continuum/discretizer.py: `build_discretized` and `discretize`, and C132.

Simplifications
* Turning expressions into Python functions (`_builder_value`) is evaluation: the grid spacings are those of the lattice, the coordinates are those of the first site,
  and everything else are parameters (`kpar` and `xpar`: coordinates that are not discretized).
* `np.allclose` is exact equality.  That a lattice with linearly dependent primitive vectors is refused is not modelled.
* The builder is modelled by its matrix elements between any two sites of the lattice: assignments of hoppings are in order, a later one replaces an earlier one for the same pair of
  sites; the reverse of a hopping is its Hermitian conjugate (the model of the builder proves this of the builder).
-/

set_option linter.unusedSectionVars false

namespace Kwant.Continuum
open Matrix

variable {m : ℕ}

/-- The argument `grid`: a number or a monatomic lattice (primitive vectors, offset, number of orbitals). -/
inductive Grid where
  | scalar (s : ℝ)
  | lat (prim : List (List ℝ)) (offset : List ℝ) (norbs : Option ℕ)

/-- Entry of a list of rows. -/
noncomputable def entry (rows : List (List ℝ)) (i j : ℕ) : ℝ := (rows.getD i []).getD j 0

/-- `s * np.eye(n)` -/
noncomputable def scaledEye (n : ℕ) (s : ℝ) : List (List ℝ) := List.ofFn fun i : Fin n => List.ofFn fun j : Fin n => if i = j then s else 0

open Classical in
/-- The check of the grid (discretizer.py l.330-335).  If the matrix is not square, numpy compares a single row with its first entry, and raises the same exception for more rows. -/
noncomputable def gridOk (prim : List (List ℝ)) (n : ℕ) : Bool :=
  prim.length == n && (if prim.all fun r => r.length == n then decide (∀ i < n, ∀ j < n, i ≠ j → entry prim i j = 0)
    else n == 1 && decide (∀ y ∈ prim.getD 0 [], y = entry prim 0 0))

/-- A template: spacings and offset of the lattice, onsite value, hoppings (`delta` of the hopping kind and value); values are functions of the position of the first site. -/
structure Template (n m : ℕ) where
  spacing : Fin n → ℝ
  offset : Fin n → ℝ
  onsite : (Fin n → ℝ) → Matrix (Fin m) (Fin m) ℂ
  hops : List ((Fin n → ℤ) × ((Fin n → ℝ) → Matrix (Fin m) (Fin m) ℂ))

/-- A quantity per discretized coordinate and the values of the other coordinates. -/
noncomputable def embed (coords : List Axis) (rest : Pos) (v : Fin coords.length → ℝ) : Pos :=
  fun c => if h : c ∈ coords then v ⟨coords.idxOf c, List.idxOf_lt_length_iff.mpr h⟩ else rest c

/-- `_builder_value` (discretizer.py l.624-704): the spacings are substituted, and the coordinates are read from the position of the first site. -/
noncomputable def builderValue (coords : List Axis) (xpar : Pos) (spacing : Fin coords.length → ℝ) (v : Pos → Pos → Matrix (Fin m) (Fin m) ℂ)
    (pos : Fin coords.length → ℝ) : Matrix (Fin m) (Fin m) ℂ :=
  v (embed coords 1 spacing) (embed coords xpar pos)

/-- The grid after the defaults (discretizer.py l.294-305). -/
noncomputable def chosenGrid : Option Grid → Option ℝ → Grid
  | some g, _ => g
  | none, some s => .scalar s
  | none, none => .scalar 1

/-- Primitive vectors, offset and number of orbitals of the lattice (discretizer.py l.323-326). -/
noncomputable def latticeOf (n m : ℕ) : Grid → List (List ℝ) × List ℝ × Option ℕ
  | .scalar s => (scaledEye n s, [], some m)
  | .lat prim offset norbs => (prim, offset, norbs)

/-- `build_discretized` (discretizer.py l.244-366) for `coords` that are names of coordinates. -/
noncomputable def buildDiscretized (xpar : Pos) (tb : List (List ℤ × (Pos → Pos → Matrix (Fin m) (Fin m) ℂ))) (coords : List Axis) (grid : Option Grid)
    (gridSpacing : Option ℝ) : Except DErr (Template coords.length m) :=
  if coords.length = 0 then .error .value
  else if grid.isSome ∧ gridSpacing.isSome then .error .value
  else if coords ≠ coords.mergeSort (fun a b => decide (a ≤ b)) then .error .value
  else
    let lat := latticeOf coords.length m (chosenGrid grid gridSpacing)
    if gridOk lat.1 coords.length = false then .error .value
    else if lat.2.2 ≠ none ∧ lat.2.2 ≠ some m then .error .value
    else
      let spacing : Fin coords.length → ℝ := fun i => entry lat.1 i i
      match tb.find? (fun p => p.1 = List.replicate coords.length 0) with
      | none => .error .key
      | some o => .ok {
          spacing := spacing
          offset := fun i => lat.2.1.getD i 0
          onsite := builderValue coords xpar spacing o.2
          hops := (tb.filter fun p => p.1 ≠ List.replicate coords.length 0).map fun p => (fun i => -(p.1.getD i 0), builderValue coords xpar spacing p.2) }

/-- The position of a site. -/
noncomputable def Template.pos {n : ℕ} (T : Template n m) (s : Fin n → ℤ) : Fin n → ℝ := fun i => s i * T.spacing i + T.offset i

open Classical in
/-- The matrix element between two sites of a builder that has been filled with the template. -/
noncomputable def Template.element {n : ℕ} (T : Template n m) (s s' : Fin n → ℤ) : Matrix (Fin m) (Fin m) ℂ :=
  if s = s' then T.onsite (T.pos s)
  else match T.hops.reverse.find? (fun p => decide (p.1 = s - s' ∨ p.1 = s' - s)) with
    | none => 0
    | some p => if p.1 = s - s' then p.2 (T.pos s) else (p.2 (T.pos s'))ᴴ

/-- `discretize` (discretizer.py l.89-142). -/
noncomputable def discretize (kpar : Axis → ℂ) (xpar : Pos) (atoms : List String) (ham : Fin m → Fin m → Expr) (coords : Option (List String)) (grid : Option Grid)
    (gridSpacing : Option ℝ) : Except DErr (Σ n, Template n m) :=
  match discretizeSymbolic kpar atoms ham coords with
  | .error e => .error e
  | .ok (tb, l) => match l.mapM axisOf with
    | none => .error .key
    | some cs => match buildDiscretized xpar tb cs grid gridSpacing with
      | .error e => .error e
      | .ok T => .ok ⟨_, T⟩

/-! ### Lemmas -/

theorem ofFn_eq_map (coords : List Axis) (k : Fin coords.length → ℤ) (hnd : coords.Nodup) :
    List.ofFn k = coords.map fun c => if h : c ∈ coords then k ⟨coords.idxOf c, List.idxOf_lt_length_iff.mpr h⟩ else 0 := by
  apply List.ext_getElem
  · simp
  · intro i h1 h2
    have hi : i < coords.length := by simpa using h1
    simp only [List.getElem_ofFn, List.getElem_map, List.getElem_mem, dif_pos]
    congr 1
    apply Fin.ext
    simp only
    exact (List.Nodup.idxOf_getElem hnd i hi).symm

theorem gridAt_embed (coords : List Axis) (hnd : coords.Nodup) (k : Fin coords.length → ℤ) (rest xpar : Pos) (spacing v : Fin coords.length → ℝ) :
    gridAt coords (List.ofFn k) (embed coords rest spacing) (embed coords xpar v) = embed coords xpar (fun i => v i + k i * spacing i) := by
  rw [ofFn_eq_map coords k hnd, gridAt_map coords hnd]
  funext c
  unfold embed
  by_cases hc : c ∈ coords
  · simp [hc]
  · simp [hc]

theorem negKey_ofFn {n : ℕ} (k : Fin n → ℤ) : negKey (List.ofFn k) = List.ofFn (-k) := by
  unfold negKey; rw [List.map_ofFn]; rfl

theorem replicate_eq_ofFn (n : ℕ) : (List.replicate n 0 : List ℤ) = List.ofFn (0 : Fin n → ℤ) := by
  symm; exact List.ofFn_const n 0

theorem ofFn_getD {n : ℕ} (l : List ℤ) (h : l.length = n) : List.ofFn (fun i : Fin n => l.getD i 0) = l := by
  subst h
  apply List.ext_getElem
  · simp
  · intro i h1 h2
    simp [List.getElem?_eq_getElem h2]

theorem mem_find_of_nodup {K V : Type*} [DecidableEq K] (d : List (K × V)) (h : (d.map Prod.fst).Nodup) (p : K × V) (hp : p ∈ d) :
    d.find? (fun q => q.1 = p.1) = some p := by
  induction d with
  | nil => simp at hp
  | cons q d ih =>
    simp only [List.map_cons, List.nodup_cons] at h
    rcases List.mem_cons.mp hp with rfl | hp
    · simp
    · rw [List.find?_cons]
      have : ¬ q.1 = p.1 := fun e => h.1 (e ▸ List.mem_map_of_mem hp)
      simp only [this, decide_false]
      exact ih h.2 hp

theorem key_unique {K V : Type*} (d : List (K × V)) (h : (d.map Prod.fst).Nodup) {p q : K × V} (hp : p ∈ d) (hq : q ∈ d) (e : p.1 = q.1) : p = q := by
  induction d with
  | nil => simp at hp
  | cons r d ih =>
    simp only [List.map_cons, List.nodup_cons] at h
    rcases List.mem_cons.mp hp with hp1 | hp1 <;> rcases List.mem_cons.mp hq with hq1 | hq1
    · rw [hp1, hq1]
    · rw [hp1] at e; exact absurd (e ▸ List.mem_map_of_mem hq1) h.1
    · rw [hq1] at e; exact absurd (e ▸ List.mem_map_of_mem hp1) h.1
    · exact ih h.2 hp1 hq1

/-- The value that a template should have between a site and the site `k` further. -/
theorem build_element (kpar : Axis → ℂ) (hk : ∀ c, star (kpar c) = kpar c) (xpar : Pos) (coords : List Axis) (hnd : coords.Nodup) (ham : Fin m → Fin m → Expr)
    (hh : FormallyHermitian ham) (grid : Option Grid) (gs : Option ℝ) (T : Template coords.length m)
    (hT : buildDiscretized xpar (keepWanted (allHoppings kpar coords ham)) coords grid gs = .ok T) (s k : Fin coords.length → ℤ) :
    (∀ p ∈ allHoppings kpar coords ham, p.1 = List.ofFn k → T.element s (s + k) = p.2 (embed coords 1 T.spacing) (embed coords xpar (T.pos s))) ∧
    (List.ofFn k ∉ (allHoppings kpar coords ham).map Prod.fst → T.element s (s + k) = 0) := by
  classical
  obtain ⟨hkept, hz, hall⟩ := kept_hoppings kpar coords hnd ham
  have hnodup := (all_spec kpar coords hnd ham).1
  have hlen := all_keys_length kpar coords hnd ham
  have hkn : ((keepWanted (allHoppings kpar coords ham)).map Prod.fst).Nodup := by
    unfold keepWanted; exact hnodup.sublist (List.Sublist.map _ List.filter_sublist)
  unfold buildDiscretized at hT
  dsimp only at hT
  split at hT
  · cases hT
  split at hT
  · cases hT
  split at hT
  · cases hT
  split at hT
  · cases hT
  split at hT
  · cases hT
  split at hT
  · cases hT
  · next o ho =>
    injection hT with hT
    generalize hsp : T.spacing = sp at *
    have hon : T.onsite = builderValue coords xpar sp o.2 := by rw [← hsp, ← hT]
    have hhops : T.hops = ((keepWanted (allHoppings kpar coords ham)).filter fun p => p.1 ≠ List.replicate coords.length 0).map
        fun p => (fun i : Fin coords.length => -(p.1.getD i 0), builderValue coords xpar sp p.2) := by rw [← hsp, ← hT]
    clear hT
    have homem := List.mem_of_find?_eq_some ho
    have hokey : o.1 = List.replicate coords.length 0 := by simpa using List.find?_some ho
    have hmemhops : ∀ r, r ∈ T.hops ↔ ∃ p ∈ allHoppings kpar coords ham, FirstPos p.1 ∧ p.1 ≠ List.replicate coords.length 0 ∧
        r = (fun i : Fin coords.length => -(p.1.getD i 0), builderValue coords xpar sp p.2) := by
      intro r
      rw [hhops]
      simp only [List.mem_map, List.mem_filter, decide_eq_true_eq, ne_eq, hkept]
      constructor
      · rintro ⟨p, ⟨⟨h1, h2⟩, h3⟩, rfl⟩
        exact ⟨p, h1, h2.resolve_left h3, by simpa using h3, rfl⟩
      · rintro ⟨p, h1, h2, h3, rfl⟩
        exact ⟨p, ⟨⟨h1, Or.inr h2⟩, by simpa using h3⟩, rfl⟩
    by_cases hk0 : k = 0
    · subst hk0
      constructor
      · intro p hp he
        unfold Template.element
        rw [if_pos (by simp), hon]
        have : p = o := key_unique _ hnodup hp ((hkept o).mp homem).1 (by rw [he, hokey, replicate_eq_ofFn])
        rw [this]; rfl
      · intro h
        exact absurd (by rw [← replicate_eq_ofFn, ← hokey]; exact List.mem_map_of_mem ((hkept o).mp homem).1) h
    · have hss : ¬ s = s + k := fun e => hk0 (by simpa using e.symm)
      have hkey0 : List.ofFn k ≠ List.replicate coords.length 0 := by
        rw [replicate_eq_ofFn]; intro e; exact hk0 (List.ofFn_injective e)
      -- which hoppings fit
      have hfit : ∀ p ∈ allHoppings kpar coords ham, ((fun i : Fin coords.length => -(p.1.getD i 0)) = s - (s + k) ↔ p.1 = List.ofFn k) ∧
          ((fun i : Fin coords.length => -(p.1.getD i 0)) = (s + k) - s ↔ p.1 = negKey (List.ofFn k)) := by
        intro p hp
        have hl := hlen p.1 (List.mem_map_of_mem hp)
        have e := ofFn_getD p.1 hl
        constructor
        · constructor
          · intro h
            rw [← e]; congr 1; funext i
            have := congrFun h i; simp only [Pi.sub_apply, Pi.add_apply] at this; omega
          · intro h; rw [h]; funext i; simp
        · constructor
          · intro h
            rw [negKey_ofFn, ← e]; congr 1; funext i
            have := congrFun h i; simp only [Pi.sub_apply, Pi.add_apply, Pi.neg_apply] at this ⊢; omega
          · intro h; rw [h, negKey_ofFn]; funext i; simp
      unfold Template.element
      rw [if_neg hss]
      constructor
      · intro p hp he
        obtain ⟨q, hq, hqk, hqv⟩ := discretize_hermitian kpar hk coords hnd ham hh p hp
        have hl := hlen p.1 (List.mem_map_of_mem hp)
        -- one of p, q is kept
        cases hfind : T.hops.reverse.find? (fun r => decide (r.1 = s - (s + k) ∨ r.1 = s + k - s)) with
        | none =>
          exfalso
          rw [List.find?_eq_none] at hfind
          rcases lt_trichotomy (List.replicate coords.length 0) p.1 with h | h | h
          · have hr := (hmemhops _).mpr ⟨p, hp, (pos_iff _ _ hl).mp h, fun e => hkey0 (he ▸ e), rfl⟩
            have := hfind _ (List.mem_reverse.mpr hr)
            apply this; simp only [decide_eq_true_eq]; left; exact (hfit p hp).1.mpr he
          · exact hkey0 (by rw [← he, ← h])
          · have hlq : q.1.length = coords.length := by rw [hqk, negKey_length, hl]
            have hpos : FirstPos q.1 := by
              rw [← pos_iff _ _ hlq, ← neg_lt_iff _ _ hlq, hqk, negKey_negKey]; exact h
            have hne : q.1 ≠ List.replicate coords.length 0 := by
              intro e
              rw [e] at hpos
              rw [← pos_iff coords.length _ (by simp)] at hpos
              exact lt_irrefl _ hpos
            have hr := (hmemhops _).mpr ⟨q, hq, hpos, hne, rfl⟩
            have := hfind _ (List.mem_reverse.mpr hr)
            apply this; simp only [decide_eq_true_eq]; right
            exact (hfit q hq).2.mpr (by rw [hqk, he])
        | some r =>
          simp only
          have hr1 := List.mem_reverse.mp (List.mem_of_find?_eq_some hfind)
          have hr2 : r.1 = s - (s + k) ∨ r.1 = s + k - s := by simpa using List.find?_some hfind
          obtain ⟨p', hp', -, -, rfl⟩ := (hmemhops r).mp hr1
          by_cases h1 : (fun i : Fin coords.length => -(p'.1.getD i 0)) = s - (s + k)
          · rw [if_pos h1]
            have : p' = p := key_unique _ hnodup hp' hp (by rw [(hfit p' hp').1.mp h1, he])
            rw [this]; rfl
          · rw [if_neg h1]
            have h2 := (hfit p' hp').2.mp (hr2.resolve_left h1)
            have : p' = q := key_unique _ hnodup hp' hq (by rw [h2, hqk, he])
            rw [this]
            unfold builderValue
            have hpos : embed coords xpar (T.pos (s + k)) = gridAt coords p.1 (embed coords 1 sp) (embed coords xpar (T.pos s)) := by
              rw [he, gridAt_embed coords hnd]
              congr 1; funext i
              unfold Template.pos; simp only [Pi.add_apply, hsp]; push_cast; ring
            simp only
            rw [hpos, hqv, Matrix.conjTranspose_conjTranspose]
      · intro hno
        cases hfind : T.hops.reverse.find? (fun r => decide (r.1 = s - (s + k) ∨ r.1 = s + k - s)) with
        | none => rfl
        | some r =>
          exfalso
          have hr1 := List.mem_reverse.mp (List.mem_of_find?_eq_some hfind)
          have hr2 : r.1 = s - (s + k) ∨ r.1 = s + k - s := by simpa using List.find?_some hfind
          obtain ⟨p', hp', -, -, rfl⟩ := (hmemhops r).mp hr1
          rcases hr2 with h | h
          · exact hno ((hfit p' hp').1.mp h ▸ List.mem_map_of_mem hp')
          · have := (hfit p' hp').2.mp h
            have h3 := all_keys_neg kpar coords hnd ham p'.1 (List.mem_map_of_mem hp')
            rw [this, negKey_negKey] at h3
            exact hno h3

/-- C132.  The system that `discretize` builds for a formally Hermitian Hamiltonian: acting with all its matrix elements on the values of a wave function at the sites gives, at every site,
the Hamiltonian with central differences applied to the wave function.  (Only half of the hoppings are put into the builder, the other half are Hermitian conjugates.)
For every wave function, every site, every number of orbitals and every grid. -/
theorem build_operator (kpar : Axis → ℂ) (hk : ∀ c, star (kpar c) = kpar c) (xpar : Pos) (coords : List Axis) (hnd : coords.Nodup) (ham : Fin m → Fin m → Expr)
    (hh : FormallyHermitian ham) (grid : Option Grid) (gs : Option ℝ) (T : Template coords.length m)
    (hT : buildDiscretized xpar (keepWanted (allHoppings kpar coords ham)) coords grid gs = .ok T) (s : Fin coords.length → ℤ) (ψ : Pos → Fin m → ℂ) :
    ∑ᶠ s' : Fin coords.length → ℤ, T.element s s' *ᵥ ψ (embed coords xpar (T.pos s')) =
      fun i => ∑ j, ((ham i j).map fun t => discOp kpar coords (stepOf t (embed coords 1 T.spacing)) t (fun y => ψ y j) (embed coords xpar (T.pos s))).sum := by
  classical
  rw [← discretize_operator kpar coords hnd ham]
  have hnodup := (all_spec kpar coords hnd ham).1
  have hlen := all_keys_length kpar coords hnd ham
  have hel := build_element kpar hk xpar coords hnd ham hh grid gs T hT s
  -- reindex by the offset
  have hre : ∑ᶠ s' : Fin coords.length → ℤ, T.element s s' *ᵥ ψ (embed coords xpar (T.pos s')) =
      ∑ᶠ k : Fin coords.length → ℤ, T.element s (s + k) *ᵥ ψ (embed coords xpar (T.pos (s + k))) :=
    (finsum_comp_equiv (Equiv.addLeft s)).symm
  rw [hre]
  let toK : List ℤ × (Pos → Pos → Matrix (Fin m) (Fin m) ℂ) → (Fin coords.length → ℤ) := fun p i => p.1.getD i 0
  have htoK : ∀ p ∈ allHoppings kpar coords ham, List.ofFn (toK p) = p.1 := fun p hp => ofFn_getD p.1 (hlen p.1 (List.mem_map_of_mem hp))
  have hkn : ((allHoppings kpar coords ham).map toK).Nodup := by
    have : (allHoppings kpar coords ham).map Prod.fst = ((allHoppings kpar coords ham).map toK).map (fun k => List.ofFn k) := by
      rw [List.map_map]; apply List.map_congr_left; intro p hp; exact (htoK p hp).symm
    rw [this] at hnodup
    exact hnodup.of_map _
  rw [finsum_eq_sum_of_support_subset (s := ((allHoppings kpar coords ham).map toK).toFinset)]
  · rw [List.sum_toFinset _ hkn, List.map_map]
    congr 1
    apply List.map_congr_left
    intro p hp
    simp only [Function.comp]
    rw [(hel (toK p)).1 p hp (htoK p hp).symm]
    congr 2
    have := gridAt_embed coords hnd (toK p) 1 xpar T.spacing (T.pos s)
    rw [htoK p hp] at this
    rw [this]
    congr 1; funext i
    unfold Template.pos; simp only [Pi.add_apply]; push_cast; ring
  · intro k hkk
    rw [Function.mem_support] at hkk
    by_contra hno
    apply hkk
    rw [(hel k).2, Matrix.zero_mulVec]
    intro hmem
    apply hno
    obtain ⟨p, hp, he⟩ := List.mem_map.mp hmem
    rw [List.coe_toFinset]
    refine List.mem_map.mpr ⟨p, hp, ?_⟩
    apply List.ofFn_injective
    rw [htoK p hp, he]

/-- C132.  The system is Hermitian. -/
theorem build_hermitian (kpar : Axis → ℂ) (hk : ∀ c, star (kpar c) = kpar c) (xpar : Pos) (coords : List Axis) (hnd : coords.Nodup) (ham : Fin m → Fin m → Expr)
    (hh : FormallyHermitian ham) (grid : Option Grid) (gs : Option ℝ) (T : Template coords.length m)
    (hT : buildDiscretized xpar (keepWanted (allHoppings kpar coords ham)) coords grid gs = .ok T) (s s' : Fin coords.length → ℤ) :
    T.element s' s = (T.element s s')ᴴ := by
  have hel := build_element kpar hk xpar coords hnd ham hh grid gs T hT
  obtain ⟨k, rfl⟩ : ∃ k, s' = s + k := ⟨s' - s, by abel⟩
  have hback : T.element (s + k) s = T.element (s + k) (s + k + -k) := by rw [add_neg_cancel_right]
  rw [hback]
  by_cases hmem : List.ofFn k ∈ (allHoppings kpar coords ham).map Prod.fst
  · obtain ⟨p, hp, he⟩ := List.mem_map.mp hmem
    obtain ⟨q, hq, hqk, hqv⟩ := discretize_hermitian kpar hk coords hnd ham hh p hp
    rw [(hel s k).1 p hp he, (hel (s + k) (-k)).1 q hq (by rw [hqk, he, negKey_ofFn]), ← hqv]
    have hpos : embed coords xpar (T.pos (s + k)) = gridAt coords p.1 (embed coords 1 T.spacing) (embed coords xpar (T.pos s)) := by
      rw [he, gridAt_embed coords hnd]
      congr 1; funext i
      unfold Template.pos; simp only [Pi.add_apply]; push_cast; ring
    rw [hpos]
  · rw [(hel s k).2 hmem, (hel (s + k) (-k)).2, Matrix.conjTranspose_zero]
    intro h
    have := all_keys_neg kpar coords hnd ham _ h
    rw [negKey_ofFn, neg_neg] at this
    exact hmem this

end Kwant.Continuum
