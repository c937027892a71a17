import Verif.Oper.Model
import Verif.Final.InfProps
import Mathlib.Tactic.Ring
import Mathlib.Tactic.Linarith
import Mathlib.Data.Nat.ModEq

/-!
C50 (`where`), C51 (`_check_ham`), C52 (`BlockSparseMatrix`).
-/

set_option linter.unusedSectionVars false

namespace Kwant.Oper
open Kwant Kwant.System Kwant.Graph Kwant.Final

section
variable {R P E F : Type} [CommRing R] [StarRing R] [DecidableEq R] [CLike R] [DecidableEq F]

/-! ### C52 -/

theorem writeRow (d : ℕ → R) (base n : ℕ) (v : ℕ → R) (k : ℕ) :
    (List.range n).foldl (fun d j => Function.update d (base + j) (v j)) d k =
      if base ≤ k ∧ k < base + n then v (k - base) else d k := by
  induction n with
  | zero => simp
  | succ n ih =>
    rw [List.range_succ, List.foldl_append]
    simp only [List.foldl_cons, List.foldl_nil, Function.update_apply, ih]
    by_cases h1 : k = base + n
    · subst h1; simp
    · by_cases h2 : base ≤ k ∧ k < base + n
      · rw [if_neg h1, if_pos h2, if_pos (by omega)]
      · rw [if_neg h1, if_neg h2, if_neg (by omega)]

theorem copyMat_eq (d : ℕ → R) (off aN bN : ℕ) (m : Mat R) (k : ℕ) :
    copyMat d off aN bN m k = if off ≤ k ∧ k < off + aN * bN then m.val ((k - off) / bN) ((k - off) % bN) else d k := by
  unfold copyMat
  induction aN with
  | zero => simp
  | succ n ih =>
    rw [List.range_succ, List.foldl_append]
    simp only [List.foldl_cons, List.foldl_nil]
    rw [writeRow, ih]
    have hs : (n + 1) * bN = n * bN + bN := by ring
    by_cases h1 : off + n * bN ≤ k ∧ k < off + n * bN + bN
    · rw [if_pos h1, if_pos (by omega)]
      have hk : k - off = (k - (off + n * bN)) + n * bN := by omega
      have hlt : k - (off + n * bN) < bN := by omega
      rw [hk, Nat.add_mul_div_right _ _ (by omega), Nat.add_mul_mod_self_right, Nat.div_eq_of_lt hlt, Nat.mod_eq_of_lt hlt,
        Nat.zero_add]
    · rw [if_neg h1]
      by_cases h2 : off ≤ k ∧ k < off + n * bN
      · rw [if_pos h2, if_pos (by omega)]
      · rw [if_neg h2, if_neg (by omega)]

theorem copyMat_at (d : ℕ → R) (off aN bN : ℕ) (m : Mat R) {i j : ℕ} (hi : i < aN) (hj : j < bN) :
    copyMat d off aN bN m (off + i * bN + j) = m.val i j := by
  have hle : i * bN + j < aN * bN := by nlinarith
  rw [copyMat_eq, if_pos (by omega)]
  have hk : off + i * bN + j - off = j + i * bN := by omega
  rw [hk, Nat.add_mul_div_right _ _ (by omega), Nat.add_mul_mod_self_right, Nat.div_eq_of_lt hj, Nat.mod_eq_of_lt hj, Nat.zero_add]

/-- Sum of the sizes of the blocks. -/
def sizes (sh : List (ℕ × ℕ)) : ℕ := (sh.map fun s => s.1 * s.2).sum

theorem offsetsLoop_length (sh : List (ℕ × ℕ)) (s : ℕ) : (offsetsLoop sh s).1.length = sh.length := by
  induction sh generalizing s with
  | nil => rfl
  | cons x sh ih => obtain ⟨n, m⟩ := x; simp [offsetsLoop, ih]

theorem offsetsLoop_size (sh : List (ℕ × ℕ)) (s : ℕ) : (offsetsLoop sh s).2 = s + sizes sh := by
  induction sh generalizing s with
  | nil => simp [offsetsLoop, sizes]
  | cons x sh ih => obtain ⟨n, m⟩ := x; simp [offsetsLoop, ih, sizes]; ring

theorem offsetsLoop_get (sh : List (ℕ × ℕ)) (s w : ℕ) (hw : w < sh.length) :
    (offsetsLoop sh s).1[w]? = some (s + sizes (sh.take w)) := by
  induction sh generalizing s w with
  | nil => simp at hw
  | cons x sh ih =>
    obtain ⟨n, m⟩ := x
    cases w with
    | zero => simp [offsetsLoop, sizes]
    | succ w =>
      have := ih (s + n * m) w (by simpa using hw)
      simp only [offsetsLoop, List.getElem?_cons_succ, this, sizes, List.take_succ_cons, List.map_cons, List.sum_cons]
      congr 1; ring

theorem sizes_take_succ (sh : List (ℕ × ℕ)) (w n m : ℕ) (h : sh[w]? = some (n, m)) :
    sizes (sh.take (w + 1)) = sizes (sh.take w) + n * m := by
  simp [sizes, List.take_add_one, h]

theorem sizes_take_mono (sh : List (ℕ × ℕ)) {v w : ℕ} (h : v ≤ w) : sizes (sh.take v) ≤ sizes (sh.take w) := by
  induction h with
  | refl => exact le_refl _
  | step h ih =>
    next w =>
    refine le_trans ih ?_
    rw [List.take_add_one]
    unfold sizes
    rw [List.map_append, List.sum_append]; omega

theorem sizes_take_le (sh : List (ℕ × ℕ)) (w : ℕ) : sizes (sh.take w) ≤ sizes sh := by
  have := sizes_take_mono sh (v := w) (w := max w sh.length) (by omega)
  rwa [List.take_of_length_le (l := sh) (i := max w sh.length) (by omega)] at this

theorem populate_low (f : ℕ → ℕ → ℕ → ℕ → Except (OErr E) (Mat R)) (wh sh : List (ℕ × ℕ)) (s : ℕ) (d d' : ℕ → R)
    (h : populate f wh sh (offsetsLoop sh s).1 d = .ok d') : ∀ k < s, d' k = d k := by
  induction wh generalizing sh s d with
  | nil => simp [populate] at h; subst h; simp
  | cons x wh ih =>
    obtain ⟨a, b⟩ := x
    cases sh with
    | nil => simp [populate] at h; subst h; simp
    | cons y sh =>
      obtain ⟨n, m⟩ := y
      simp only [offsetsLoop, populate] at h
      cases hf : f a n b m with
      | error e => simp [hf] at h
      | ok M =>
        simp only [hf] at h
        intro k hk
        rw [ih _ _ _ h k (by omega), copyMat_eq, if_neg (by omega)]

theorem populate_at (f : ℕ → ℕ → ℕ → ℕ → Except (OErr E) (Mat R)) (wh sh : List (ℕ × ℕ)) (s : ℕ) (d d' : ℕ → R)
    (h : populate f wh sh (offsetsLoop sh s).1 d = .ok d') (w a b n m : ℕ) (hw : wh[w]? = some (a, b))
    (hs : sh[w]? = some (n, m)) :
    ∃ M, f a n b m = .ok M ∧ ∀ i < n, ∀ j < m, d' (s + sizes (sh.take w) + i * m + j) = M.val i j := by
  induction wh generalizing sh s d w with
  | nil => simp at hw
  | cons x wh ih =>
    obtain ⟨a', b'⟩ := x
    cases sh with
    | nil => simp at hs
    | cons y sh =>
      obtain ⟨n', m'⟩ := y
      simp only [offsetsLoop, populate] at h
      cases hf : f a' n' b' m' with
      | error e => simp [hf] at h
      | ok M =>
        simp only [hf] at h
        cases w with
        | zero =>
          simp only [List.getElem?_cons_zero, Option.some.injEq, Prod.mk.injEq] at hw hs
          obtain ⟨rfl, rfl⟩ := hw
          obtain ⟨rfl, rfl⟩ := hs
          refine ⟨M, hf, fun i hi j hj => ?_⟩
          have hle : i * m' + j < n' * m' := by nlinarith
          rw [populate_low f wh sh _ _ _ h _ (by simp [sizes]; omega)]
          simpa [sizes] using copyMat_at d s n' m' M hi hj
        | succ w =>
          obtain ⟨M', h1, h2⟩ := ih sh (s + n' * m') _ h w (by simpa using hw) (by simpa using hs)
          refine ⟨M', h1, fun i hi j hj => ?_⟩
          rw [← h2 i hi j hj]
          congr 1
          simp [sizes]; ring

theorem populate_ok (f : ℕ → ℕ → ℕ → ℕ → Except (OErr E) (Mat R)) (wh sh : List (ℕ × ℕ)) (hl : sh.length = wh.length)
    (s : ℕ) (d : ℕ → R) :
    (∃ d', populate f wh sh (offsetsLoop sh s).1 d = .ok d') ↔
      ∀ (w a b n m : ℕ), wh[w]? = some (a, b) → sh[w]? = some (n, m) → ∃ M, f a n b m = .ok M := by
  constructor
  · rintro ⟨d', h⟩ w a b n m hw hs
    obtain ⟨M, hM, _⟩ := populate_at f wh sh s d d' h w a b n m hw hs
    exact ⟨M, hM⟩
  · intro h
    induction wh generalizing sh s d with
    | nil => exact ⟨d, by simp [populate]⟩
    | cons x wh ih =>
      obtain ⟨a', b'⟩ := x
      cases sh with
      | nil => simp at hl
      | cons y sh =>
        obtain ⟨n', m'⟩ := y
        obtain ⟨M, hM⟩ := h 0 a' b' n' m' rfl rfl
        simp only [offsetsLoop, populate, hM]
        exact ih sh (by simpa using hl) _ _ (fun w a b n m hw hs => h (w + 1) a b n m (by simpa using hw) (by simpa using hs))

/-- C52: after construction, element `(i, j)` of block `w` is found at `data[data_offsets[w] + i * n_cols + j]`, within
the allocated array; different blocks occupy disjoint intervals.  -/
theorem C52_blocks {junk : ℕ → R} {wh offsets shapes : List (ℕ × ℕ)} {f : ℕ → ℕ → ℕ → ℕ → Except (OErr E) (Mat R)} {B : BSM R}
    (h : BSM.init junk wh offsets shapes f = .ok B) :
    B.blockOffsets = offsets ∧ B.blockShapes = shapes ∧
    (∀ (w a b n m : ℕ), wh[w]? = some (a, b) → shapes[w]? = some (n, m) → ∃ o M, B.dataOffsets[w]? = some o ∧
      o + n * m ≤ B.dataSize ∧ f a n b m = .ok M ∧
      ∀ i < n, ∀ j < m, B.data (o + i * m + j) = M.val i j ∧ B.get w (i * m + j) = M.val i j) ∧
    (∀ (v w o o' n m : ℕ), v < w → B.dataOffsets[v]? = some o → B.dataOffsets[w]? = some o' → shapes[v]? = some (n, m) →
      o + n * m ≤ o') := by
  unfold BSM.init at h
  split at h
  · cases h
  · next hl =>
    push Not at hl
    simp only at h
    split at h
    · cases h
    · next d hd =>
      cases h
      refine ⟨rfl, rfl, ?_, ?_⟩
      · intro w a b n m hw hs
        obtain ⟨M, hM, hv⟩ := populate_at f wh shapes 0 junk d hd w a b n m hw hs
        have hlt : w < shapes.length := (List.getElem?_eq_some_iff.mp hs).1
        have ho := offsetsLoop_get shapes 0 w hlt
        refine ⟨_, M, ho, ?_, hM, fun i hi j hj => ⟨hv i hi j hj, ?_⟩⟩
        · show _ ≤ (offsetsLoop shapes 0).2
          rw [offsetsLoop_size, Nat.add_assoc, ← sizes_take_succ shapes w n m hs]
          have := sizes_take_le shapes (w + 1)
          omega
        · rw [BSM.get, List.getD_eq_getElem?_getD, ho, Option.getD_some, ← Nat.add_assoc]
          exact hv i hi j hj
      · intro v w o o' n m hvw ho ho' hs
        have hw : w < shapes.length := by
          rw [← offsetsLoop_length shapes 0]; exact (List.getElem?_eq_some_iff.mp ho').1
        rw [offsetsLoop_get shapes 0 v (by omega)] at ho
        rw [offsetsLoop_get shapes 0 w hw] at ho'
        cases ho; cases ho'
        rw [Nat.add_assoc, ← sizes_take_succ shapes v n m hs]
        exact Nat.add_le_add_left (sizes_take_mono shapes hvw) _

/-- C52: construction succeeds exactly if the arrays have equal lengths and the function succeeds for every block. -/
theorem C52_succeeds (junk : ℕ → R) (wh offsets shapes : List (ℕ × ℕ)) (f : ℕ → ℕ → ℕ → ℕ → Except (OErr E) (Mat R)) :
    (∃ B, BSM.init junk wh offsets shapes f = .ok B) ↔ offsets.length = wh.length ∧ shapes.length = wh.length ∧
      ∀ (w a b n m : ℕ), wh[w]? = some (a, b) → shapes[w]? = some (n, m) → ∃ M, f a n b m = .ok M := by
  unfold BSM.init
  by_cases hl : offsets.length = wh.length ∧ shapes.length = wh.length
  · rw [if_neg (by push Not; exact hl)]
    rw [← populate_ok f wh shapes hl.2 0 junk]
    constructor
    · rintro ⟨B, hB⟩
      refine ⟨hl.1, hl.2, ?_⟩
      simp only at hB
      split at hB
      · cases hB
      · next d hd => exact ⟨d, hd⟩
    · rintro ⟨_, _, d, hd⟩
      simp only [hd]
      exact ⟨_, rfl⟩
  · rw [if_pos (by by_contra hx; push Not at hx; exact hl hx)]
    constructor
    · rintro ⟨B, hB⟩; cases hB
    · rintro ⟨h1, h2, _⟩; exact absurd ⟨h1, h2⟩ hl

/-! ### C51 -/

/-- C51 (part): a Hamiltonian block with both dimensions right passes the shape test; one with both wrong is rejected. -/
theorem C51_shape_partial (H : Mat R) (aN bN : ℕ) :
    (H.rows = aN ∧ H.cols = bN → hamShapeBad H aN bN = false) ∧
    (H.rows ≠ aN ∧ H.cols ≠ bN → hamShapeBad H aN bN = true) := by
  unfold hamShapeBad
  constructor
  · rintro ⟨h1, h2⟩; simp [h1]
  · rintro ⟨h1, h2⟩; simp [h1, h2]

/-- C51 (part): for square blocks and equal numbers of orbitals (in particular onsite blocks) the test is exact. -/
theorem C51_square_partial (H : Mat R) (n : ℕ) (hsq : H.rows = H.cols) :
    hamShapeBad H n n = false ↔ H.rows = n ∧ H.cols = n := by
  unfold hamShapeBad
  rw [← hsq]
  by_cases h : H.rows = n <;> simp [h]

/-- C51 is false of the code: for all declared orbital numbers, a block with only one wrong dimension is accepted. -/
theorem C51_counterexample (aN bN c : ℕ) (hc : c ≠ bN) (v : ℕ → ℕ → R) :
    ¬ ((Mat.mk aN c v).rows = aN ∧ (Mat.mk aN c v).cols = bN) ∧
    checkHam (E := E) (Mat.mk aN c v) (fun _ _ => .ok ⟨c, aN, fun i j => star (v j i)⟩) 0 aN 1 bN true = .ok () := by
  refine ⟨fun h => hc h.2, ?_⟩
  simp [checkHam, hamShapeBad, isHermConj]

/-! ### C50 -/

/-- The final tests of `_normalize_site_where`. -/
theorem tests_sites (s : WSys) (l r : List ℤ) (hc : s.cellSize ≤ s.graph.numNodes) :
    (if s.infinite && l.any fun i => decide (i ≥ (s.cellSize : ℤ)) then (.error .value : Except (OErr E) (List ℤ))
      else if l.any fun i => decide (i < 0) || decide (i ≥ (s.graph.numNodes : ℤ)) then .error .value
      else .ok l) = .ok r ↔ r = l ∧ ∀ i ∈ l, 0 ≤ i ∧ i < s.nSites := by
  by_cases h1 : (s.infinite && l.any fun i => decide (i ≥ (s.cellSize : ℤ))) = true
  · rw [if_pos h1]
    simp only [Bool.and_eq_true, List.any_eq_true, decide_eq_true_eq] at h1
    obtain ⟨hi, i, him, hge⟩ := h1
    refine ⟨fun h => (by cases h), ?_⟩
    rintro ⟨rfl, h⟩
    have := (h i him).2
    simp only [WSys.nSites, hi, if_true] at this
    omega
  · by_cases h2 : (l.any fun i => decide (i < 0) || decide (i ≥ (s.graph.numNodes : ℤ))) = true
    · rw [if_neg h1, if_pos h2]
      simp only [List.any_eq_true, Bool.or_eq_true, decide_eq_true_eq] at h2
      obtain ⟨i, him, hge⟩ := h2
      refine ⟨fun h => (by cases h), ?_⟩
      rintro ⟨rfl, h⟩
      have := h i him
      unfold WSys.nSites at this
      split at this <;> omega
    · rw [if_neg h1, if_neg h2]
      simp only [Bool.and_eq_true, List.any_eq_true, Bool.or_eq_true, decide_eq_true_eq] at h1 h2
      push Not at h1 h2
      constructor
      · intro h
        cases h
        refine ⟨rfl, fun i hi => ⟨(h2 i hi).1, ?_⟩⟩
        unfold WSys.nSites
        split
        · next hinf => exact h1 hinf i hi
        · exact (h2 i hi).2
      · rintro ⟨rfl, _⟩; rfl

/-- C50 (sites): `where` given as site numbers is accepted exactly if it is not empty and all sites exist and, for an
infinite system, are in the fundamental domain; it is then used as given. -/
theorem C50_sites (s : WSys) (hc : s.cellSize ≤ s.graph.numNodes) (l r : List ℤ) :
    normalizeSites (E := E) s (.list l) = .ok r ↔ r = l ∧ l ≠ [] ∧ ∀ i ∈ l, 0 ≤ i ∧ i < s.nSites := by
  cases l with
  | nil => simp [normalizeSites, siteInts]
  | cons x l =>
    refine (tests_sites (E := E) s (x :: l) r hc).trans ?_
    simp

/-- C50 (sites): without `where` the operator covers each site of the fundamental domain (or system) once, in order. -/
theorem C50_sites_all (s : WSys) (hc : s.cellSize ≤ s.graph.numNodes) :
    normalizeSites (E := E) s .all = .ok ((List.range s.nSites).map fun i : ℕ => (i : ℤ)) := by
  refine (tests_sites (E := E) s _ _ hc).mpr ⟨rfl, ?_⟩
  intro i hi
  obtain ⟨k, hk, rfl⟩ := List.mem_map.mp hi
  have := List.mem_range.mp hk
  exact ⟨by omega, by omega⟩

theorem checkEdges_ok (g : CGraph) (l : List (ℤ × ℤ)) :
    checkEdges (E := E) g l = .ok () ↔ ∀ h ∈ l, g.hasEdge h.1 h.2 = .ok true := by
  induction l with
  | nil => simp [checkEdges]
  | cons x l ih =>
    obtain ⟨a, b⟩ := x
    simp only [List.forall_mem_cons]
    cases hh : g.hasEdge a b with
    | error e => cases e <;> simp [checkEdges, hh]
    | ok v => cases v <;> simp [checkEdges, hh, ih]

/-- C50 (hoppings; part): which lists of hoppings are accepted: those of the graph without a site number *larger than*
the size of the fundamental cell. In particular all hoppings between sites of the fundamental cell are accepted, and no
hopping to a site of the previous cell except the first. -/
theorem C50_hops_partial (s : WSys) (l r : List (ℤ × ℤ)) :
    normalizeHops (E := E) s (.list l) = .ok r ↔ r = l ∧ l ≠ [] ∧ (∀ h ∈ l, s.graph.hasEdge h.1 h.2 = .ok true) ∧
      (s.infinite = true → ∀ h ∈ l, h.1 ≤ s.cellSize ∧ h.2 ≤ s.cellSize) := by
  cases l with
  | nil => simp [normalizeHops, hopInts]
  | cons x l =>
    have key : normalizeHops (E := E) s (.list (x :: l)) =
        match checkEdges (E := E) s.graph (x :: l) with
        | .error e => .error e
        | .ok _ => if s.infinite && (x :: l).any fun h => decide (h.1 > s.cellSize) || decide (h.2 > s.cellSize) then .error .value
          else .ok (x :: l) := by
      have e : hopInts (E := E) s (.list (x :: l)) =
          match checkEdges s.graph (x :: l) with | .ok _ => .ok (x :: l) | .error e => .error e := rfl
      unfold normalizeHops
      rw [e]
      cases checkEdges (E := E) s.graph (x :: l) <;> rfl
    rw [key]
    have hne : x :: l ≠ [] := by simp
    generalize x :: l = l at hne ⊢
    by_cases hc : checkEdges (E := E) s.graph l = .ok ()
    · rw [hc]
      simp only
      by_cases h1 : (s.infinite && l.any fun h => decide (h.1 > s.cellSize) || decide (h.2 > s.cellSize)) = true
      · rw [if_pos h1]
        simp only [Bool.and_eq_true, List.any_eq_true, Bool.or_eq_true, decide_eq_true_eq] at h1
        obtain ⟨hi, h, hm, hx⟩ := h1
        refine ⟨fun h => (by cases h), ?_⟩
        rintro ⟨_, _, _, h'⟩
        have := h' hi h hm; omega
      · rw [if_neg h1]
        simp only [Bool.and_eq_true, List.any_eq_true, Bool.or_eq_true, decide_eq_true_eq] at h1
        push Not at h1
        constructor
        · intro h
          have : r = l := by cases h; rfl
          subst this
          exact ⟨rfl, hne, (checkEdges_ok s.graph r).mp hc, h1⟩
        · rintro ⟨rfl, _⟩; rfl
    · constructor
      · intro h
        cases hx : checkEdges (E := E) s.graph l with
        | ok u => exact absurd hx hc
        | error e => rw [hx] at h; cases h
      · rintro ⟨_, _, h, _⟩
        exact absurd ((checkEdges_ok s.graph l).mpr h) hc

end

section
open Kwant.Builder
variable {S V Fn N A X E : Type} [LinearOrder S] [DecidableEq N]
variable {C : Calls S V Fn N A X} {H : HMap S V Fn} {sym : Symmetry S ℤ}

/-- C50 is false of the code, for every finalized infinite system with hoppings between cells: the inter-cell hopping from
some site `i` of the cell to the site number `cell_size` of the previous cell is accepted in `where`. -/
theorem C50_counterexample (h : Reachable sym H) (ho : OrdInv sym) {junk : ℕ → ℤ} {order : Option (List S)}
    {sys : Sys S V Fn N} {cell : ℕ} (hr : finalizeInfinite C sym junk H order = .ok (sys, cell))
    (hlead : cell < sys.sites.length) :
    ∃ i a b, i < cell ∧ sys.sites[i]? = some a ∧ sys.sites[cell]? = some b ∧ sym.which a = 0 ∧ sym.which b ≠ 0 ∧
      normalizeHops (E := E) ⟨true, cell, sys.graph, true⟩ (.list [((i : ℤ), (cell : ℤ))]) = .ok [((i : ℤ), (cell : ℤ))] := by
  obtain ⟨n, hn, hlen, _, _, hcell, hint, himg, _, _⟩ := C46_layout h ho hr
  obtain ⟨hl, hw⟩ := h.wf
  have hn0 : 0 < n := by omega
  obtain ⟨a, ha⟩ : ∃ a, sys.sites[0]? = some a := ⟨_, List.getElem?_eq_getElem (by omega)⟩
  obtain ⟨b, hb, hwb⟩ := (hint 0 a (by omega) ha).mp hn0
  have hc := himg 0 a hn0 ha
  have ha0 : sym.which a = 0 := ((hcell a).mp ⟨0, by omega, ha⟩).1
  obtain ⟨_, _, hsymm, hends, _, hact, _⟩ := C20_wellformed h
  have hhop := (hact (-1) a b).mp hb
  have hb' : sym.which (sym.act (-1) b) = 0 := by rw [hl.which_act, hwb]; rfl
  obtain ⟨i, hi, hib⟩ := (hcell _).mpr ⟨hb', (hends _ _ hhop).2.2⟩
  rw [Nat.add_zero] at hc
  refine ⟨i, _, _, hi, hib, hc, hb', by rw [hl.which_act, ha0]; decide, ?_⟩
  rw [C50_hops_partial]
  obtain ⟨_, ⟨r, hr1, hr2⟩, _⟩ := C47_hamiltonian (hc := fun v => v) h ho hr i cell _ _ hib hc
  have hrt : r = true := hr2.mpr ⟨Or.inl hi, (hsymm _ _).mp hhop⟩
  subst hrt
  refine ⟨rfl, by simp, ?_, ?_⟩
  · simp [hr1]
  · intro _; simp; omega

end
end Kwant.Oper
