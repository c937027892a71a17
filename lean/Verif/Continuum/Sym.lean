import Verif.Continuum.Thm
import Mathlib.Algebra.BigOperators.Fin
import Mathlib.LinearAlgebra.Matrix.ConjTranspose

/-! C128, C130, C131: `discretize_symbolic`. -/

set_option linter.unusedSectionVars false

namespace Kwant.Continuum
open Matrix

variable {m m' : ℕ}

theorem sum_pairs {M : Type*} [AddCommMonoid M] (g : Fin m × Fin m' → M) :
    (((List.finRange m).flatMap fun i => (List.finRange m').map fun j => (i, j)).map g).sum = ∑ i, ∑ j, g (i, j) := by
  have : ∀ l : List (Fin m), ((l.flatMap fun i => (List.finRange m').map fun j => (i, j)).map g).sum = (l.map fun i => ∑ j, g (i, j)).sum := by
    intro l
    induction l with
    | nil => rfl
    | cons i l ih => 
      rw [List.flatMap_cons, List.map_append, List.sum_append, ih, List.map_cons, List.sum_cons, List.map_map, Fin.sum_univ_def]
      rfl
  rw [this, ← Fin.sum_univ_def]

theorem mem_pairs (ij : Fin m × Fin m') : ij ∈ (List.finRange m).flatMap fun i => (List.finRange m').map fun j => (i, j) := by
  simp [List.mem_flatMap]

/-- What the dict of all hoppings contains. -/
theorem all_spec (kpar : Axis → ℂ) (coords : List Axis) (hnd : coords.Nodup) (ham : Fin m → Fin m' → Expr) :
    ((allHoppings kpar coords ham).map Prod.fst).Nodup ∧
    (∀ k, k ∈ (allHoppings kpar coords ham).map Prod.fst ↔ k = (coords.map fun _ => 0) ∨ ∃ i j, k ∈ (discretizeExpression kpar coords (ham i j)).map Prod.fst) ∧
    (∀ (a x : Pos) (i : Fin m) (j : Fin m') (ψ : Pos → ℂ), ((allHoppings kpar coords ham).map fun p => p.2 a x i j * ψ (gridAt coords p.1 a x)).sum =
      ((ham i j).map fun t => discOp kpar coords (stepOf t a) t ψ x).sum) ∧
    (∀ (a x : Pos) (i : Fin m) (j : Fin m') (k : List ℤ), k.length = coords.length →
      ((allHoppings kpar coords ham).map fun p => if p.1 = k then p.2 a x i j else 0).sum = ((ham i j).map fun t => termVal kpar coords t a x k).sum) := by
  obtain ⟨h1, h2, h3⟩ := foldl_merge (M := ℂ) ((List.finRange m).flatMap fun i => (List.finRange m').map fun j => (i, j))
    (fun ij => discretizeExpression kpar coords (ham ij.1 ij.2)) (fun ij v => atEntry ij.1 ij.2 v)
    [(coords.map fun _ => (0 : ℤ), fun _ _ => (0 : Matrix (Fin m) (Fin m') ℂ))] (by simp)
  refine ⟨h1, ?_, ?_, ?_⟩
  · intro k
    unfold allHoppings
    rw [h2]
    simp only [List.map_cons, List.map_nil, List.mem_singleton]
    apply or_congr_right
    constructor
    · rintro ⟨ij, -, h⟩; exact ⟨ij.1, ij.2, h⟩
    · rintro ⟨i, j, h⟩; exact ⟨(i, j), mem_pairs _, h⟩
  · intro a x i j ψ
    have := h3 (fun k => { toFun := fun v => v a x i j * ψ (gridAt coords k a x), map_zero' := by simp, map_add' := by intros; simp [add_mul] })
    simp only [AddMonoidHom.coe_mk, ZeroHom.coe_mk, List.map_cons, List.map_nil, List.sum_cons, List.sum_nil, Matrix.zero_apply, zero_mul, zero_add] at this
    unfold allHoppings
    rw [this, sum_pairs, Finset.sum_eq_single i, Finset.sum_eq_single j]
    · rw [← (expression_spec kpar coords hnd (ham i j)).2.1]
      simp [atEntry]
    · intro j' _ hj
      have hj' : ¬ j = j' := fun e => hj e.symm
      simp [atEntry, hj']
    · simp
    · intro i' _ hi
      have hi' : ¬ i = i' := fun e => hi e.symm
      simp [atEntry, hi']
    · simp
  · intro a x i j k hk
    have := h3 (fun k' => { toFun := fun v => if k' = k then v a x i j else 0, map_zero' := by simp, map_add' := by intro v v'; split <;> simp })
    simp only [AddMonoidHom.coe_mk, ZeroHom.coe_mk, List.map_cons, List.map_nil, List.sum_cons, List.sum_nil, Matrix.zero_apply, ite_self, zero_add] at this
    unfold allHoppings
    rw [this, sum_pairs, Finset.sum_eq_single i, Finset.sum_eq_single j]
    · rw [← (expression_spec kpar coords hnd (ham i j)).2.2 a x k hk]
      simp [atEntry]
    · intro j' _ hj
      have hj' : ¬ j = j' := fun e => hj e.symm
      simp [atEntry, hj']
    · simp
    · intro i' _ hi
      have hi' : ¬ i = i' := fun e => hi e.symm
      simp [atEntry, hi']
    · simp

theorem list_sum_apply {ι : Type*} {α : Type*} {M : Type*} [AddCommMonoid M] (l : List ι) (f : ι → α → M) (i : α) : (l.map f).sum i = (l.map fun e => f e i).sum := by
  induction l with
  | nil => rfl
  | cons e l ih => simp only [List.map_cons, List.sum_cons, Pi.add_apply, ih]

theorem list_sum_finset {ι : Type*} (l : List ι) (f : ι → Fin m → ℂ) : (l.map fun e => ∑ j, f e j).sum = ∑ j, (l.map fun e => f e j).sum := by
  induction l with
  | nil => simp
  | cons e l ih => simp only [List.map_cons, List.sum_cons, ih, Finset.sum_add_distrib]

/-- C128.  The hoppings of `discretize_symbolic`, all of them, are the Hamiltonian in which every `k_c` is replaced by a central difference: the sum over the hoppings
of the coefficient at `x` times the wave function at the displaced point is the Hamiltonian acting on the wave function.  The step of the differences is the grid spacing,
or half of it for summands with an even number of `k_c`. -/
theorem discretize_operator (kpar : Axis → ℂ) (coords : List Axis) (hnd : coords.Nodup) (ham : Fin m → Fin m' → Expr) (a x : Pos) (ψ : Pos → Fin m' → ℂ) :
    ((allHoppings kpar coords ham).map fun p => p.2 a x *ᵥ ψ (gridAt coords p.1 a x)).sum =
      fun i => ∑ j, ((ham i j).map fun t => discOp kpar coords (stepOf t a) t (fun y => ψ y j) x).sum := by
  funext i
  rw [list_sum_apply]
  simp only [Matrix.mulVec, dotProduct]
  rw [list_sum_finset]
  apply Finset.sum_congr rfl
  intro j _
  rw [← (all_spec kpar coords hnd ham).2.2.1 a x i j (fun y => ψ y j)]

/-! ### Half of the hoppings -/

theorem pos_iff (n : ℕ) (k : List ℤ) (hk : k.length = n) : List.replicate n 0 < k ↔ FirstPos k := by
  induction n generalizing k with
  | zero =>
    rw [List.length_eq_zero_iff] at hk; subst hk
    simp [FirstPos]
  | succ n ih =>
    cases k with
    | nil => simp at hk
    | cons z k =>
      rw [List.replicate_succ, List.cons_lt_cons_iff]
      have := ih k (by simpa using hk)
      constructor
      · rintro (h | ⟨rfl, h⟩)
        · exact ⟨0, z, k, by simp, h⟩
        · obtain ⟨n', z', r, he, hz⟩ := this.mp h
          exact ⟨n' + 1, z', r, by rw [List.replicate_succ, he]; rfl, hz⟩
      · rintro ⟨n', z', r, he, hz⟩
        cases n' with
        | zero =>
          simp only [List.replicate_zero, List.nil_append, List.cons.injEq] at he
          exact Or.inl (he.1 ▸ hz)
        | succ n' =>
          simp only [List.replicate_succ, List.cons_append, List.cons.injEq] at he
          exact Or.inr ⟨he.1.symm, this.mpr ⟨n', z', r, he.2, hz⟩⟩

theorem neg_lt_iff (n : ℕ) (k : List ℤ) (hk : k.length = n) : negKey k < List.replicate n 0 ↔ List.replicate n 0 < k := by
  induction n generalizing k with
  | zero =>
    rw [List.length_eq_zero_iff] at hk; subst hk
    simp [negKey]
  | succ n ih =>
    cases k with
    | nil => simp at hk
    | cons z k =>
      have := ih k (by simpa using hk)
      simp only [negKey, List.map_cons, List.replicate_succ, List.cons_lt_cons_iff] at this ⊢
      rw [this]
      constructor
      · rintro (h | ⟨h, h'⟩)
        · left; omega
        · exact Or.inr ⟨by omega, h'⟩
      · rintro (h | ⟨h, h'⟩)
        · left; omega
        · exact Or.inr ⟨by omega, h'⟩

theorem negKey_negKey (k : List ℤ) : negKey (negKey k) = k := by simp [negKey, Function.comp_def]

theorem negKey_length (k : List ℤ) : (negKey k).length = k.length := by simp [negKey]

theorem sorted_split (l : List (List ℤ)) (hs : l.Pairwise (· ≤ ·)) (z : List ℤ) :
    l = l.filter (fun a => decide (a < z)) ++ l.filter (fun a => !decide (a < z)) := by
  induction l with
  | nil => rfl
  | cons b l ih =>
    rw [List.pairwise_cons] at hs
    by_cases hb : b < z
    · simp only [List.filter_cons, hb, decide_true, if_true, Bool.not_true, Bool.false_eq_true, if_false, List.cons_append]
      rw [← ih hs.2]
    · have h1 : l.filter (fun a => decide (a < z)) = [] := by
        rw [List.filter_eq_nil_iff]; intro a ha
        simpa using le_trans (not_lt.mp hb) (hs.1 a ha)
      have h2 : l.filter (fun a => !decide (a < z)) = l := by
        rw [List.filter_eq_self]; intro a ha
        simpa using le_trans (not_lt.mp hb) (hs.1 a ha)
      simp [List.filter_cons, hb, h1, h2]

/-- C130.  `sorted(list(tb))[len(tb) // 2:]` of a set of tuples of the same length that contains the zero tuple and the negative of each of its members:
the zero tuple and the tuples whose first nonzero entry is positive.  So exactly one of each pair `k`, `-k` is kept, and nothing is lost. -/
theorem wanted_spec (keys : List (List ℤ)) (n : ℕ) (hnd : keys.Nodup) (hlen : ∀ k ∈ keys, k.length = n) (hz : List.replicate n 0 ∈ keys)
    (hneg : ∀ k ∈ keys, negKey k ∈ keys) (k : List ℤ) : k ∈ wantedHoppings keys ↔ k ∈ keys ∧ (k = List.replicate n 0 ∨ FirstPos k) := by
  set z : List ℤ := List.replicate n 0 with hzdef
  have hle : (fun a b : List ℤ => decide (a ≤ b)) = fun a b => decide (a ≤ b) := rfl
  set s := keys.mergeSort (fun a b => decide (a ≤ b)) with hs
  have hperm : s.Perm keys := List.mergeSort_perm _ _
  have hsorted : s.Pairwise (· ≤ ·) := by
    have := List.pairwise_mergeSort (le := fun a b : List ℤ => decide (a ≤ b)) (by intro a b c; simpa using fun h h' => le_trans h h')
      (by intro a b; simpa using le_total a b) keys
    exact this.imp (by simp)
  have hsnd : s.Nodup := hperm.nodup_iff.mpr hnd
  have hmem : ∀ k, k ∈ s ↔ k ∈ keys := fun k => hperm.mem_iff
  -- the number of negative keys
  have hcount : (s.filter (fun a => decide (a < z))).length = (s.filter (fun a => decide (z < a))).length := by
    have hp : (s.filter (fun a => decide (a < z))).Perm ((s.filter (fun a => decide (z < a))).map negKey) := by
      apply (List.perm_ext_iff_of_nodup (hsnd.filter _) _).mpr
      · intro b
        simp only [List.mem_filter, List.mem_map, decide_eq_true_eq, hmem]
        constructor
        · rintro ⟨hb, hbz⟩
          refine ⟨negKey b, ⟨hneg b hb, ?_⟩, negKey_negKey b⟩
          rw [← neg_lt_iff n _ (by rw [negKey_length]; exact hlen b hb), negKey_negKey]; exact hbz
        · rintro ⟨b', ⟨hb', hz'⟩, rfl⟩
          exact ⟨hneg b' hb', (neg_lt_iff n b' (hlen b' hb')).mpr hz'⟩
      · exact (hsnd.filter _).map_on (by intro a _ b _ hab; rw [← negKey_negKey a, hab, negKey_negKey])
    rw [hp.length_eq, List.length_map]
  have hge : s.filter (fun a => !decide (a < z)) = z :: s.filter (fun a => decide (z < a)) ∨
      (s.filter (fun a => !decide (a < z))).length = 1 + (s.filter (fun a => decide (z < a))).length := by
    right
    have hp : (s.filter (fun a => !decide (a < z))).Perm (z :: s.filter (fun a => decide (z < a))) := by
      apply (List.perm_ext_iff_of_nodup (hsnd.filter _) _).mpr
      · intro b
        simp only [List.mem_filter, List.mem_cons, hmem, Bool.not_eq_true', decide_eq_false_iff_not, decide_eq_true_eq, not_lt]
        constructor
        · rintro ⟨hb, hbz⟩
          rcases eq_or_lt_of_le hbz with h | h
          · exact Or.inl h.symm
          · exact Or.inr ⟨hb, h⟩
        · rintro (rfl | ⟨hb, h⟩)
          · exact ⟨hz, le_refl _⟩
          · exact ⟨hb, h.le⟩
      · rw [List.nodup_cons]
        exact ⟨by simp, hsnd.filter _⟩
    rw [hp.length_eq, List.length_cons]; omega
  have hlen2 : (s.filter (fun a => !decide (a < z))).length = 1 + (s.filter (fun a => decide (z < a))).length := by
    rcases hge with h | h
    · rw [h, List.length_cons]; omega
    · exact h
  have hsplit := sorted_split s hsorted z
  have htot : keys.length = (s.filter (fun a => decide (a < z))).length + (s.filter (fun a => !decide (a < z))).length := by
    rw [← hperm.length_eq]; conv_lhs => rw [hsplit]
    rw [List.length_append]
  have hdrop : wantedHoppings keys = s.filter (fun a => !decide (a < z)) := by
    unfold wantedHoppings
    rw [← hs]
    have hN : keys.length / 2 = (s.filter (fun a => decide (a < z))).length := by omega
    rw [hN]
    have : ∀ l1 l2 : List (List ℤ), s = l1 ++ l2 → s.drop l1.length = l2 := by
      rintro l1 l2 h; rw [h]; simp
    exact this _ _ hsplit
  rw [hdrop]
  simp only [List.mem_filter, hmem, Bool.not_eq_true', decide_eq_false_iff_not, not_lt]
  apply and_congr_right
  intro hk
  rw [← pos_iff n k (hlen k hk), le_iff_eq_or_lt, eq_comm]

theorem firstPos_neg (k : List ℤ) (h : FirstPos k) : ¬ FirstPos (negKey k) := by
  rw [← pos_iff _ k rfl] at h
  rw [← pos_iff _ (negKey k) (negKey_length k)]
  exact not_lt_of_gt ((neg_lt_iff _ k rfl).mpr h)

theorem all_keys_length (kpar : Axis → ℂ) (coords : List Axis) (hnd : coords.Nodup) (ham : Fin m → Fin m' → Expr) (k : List ℤ)
    (hk : k ∈ (allHoppings kpar coords ham).map Prod.fst) : k.length = coords.length := by
  rw [(all_spec kpar coords hnd ham).2.1] at hk
  rcases hk with rfl | ⟨i, j, hk⟩
  · simp
  · by_cases hm : (ham i j).any (fun t => t.any Factor.isMom) = true
    · obtain ⟨t, -, o, rfl, -⟩ := (discretize_offsets kpar coords hnd _ hm k).mp hk
      simp
    · unfold discretizeExpression at hk
      rw [if_neg hm] at hk
      simp only [List.map_cons, List.map_nil, List.mem_singleton] at hk
      rw [hk]; simp

theorem all_keys_neg (kpar : Axis → ℂ) (coords : List Axis) (hnd : coords.Nodup) (ham : Fin m → Fin m' → Expr) (k : List ℤ)
    (hk : k ∈ (allHoppings kpar coords ham).map Prod.fst) : negKey k ∈ (allHoppings kpar coords ham).map Prod.fst := by
  have h2 := (all_spec kpar coords hnd ham).2.1
  rw [h2] at hk ⊢
  rcases hk with rfl | ⟨i, j, hk⟩
  · left; simp [negKey]
  · by_cases hm : (ham i j).any (fun t => t.any Factor.isMom) = true
    · right
      refine ⟨i, j, ?_⟩
      rw [discretize_offsets kpar coords hnd _ hm] at hk ⊢
      obtain ⟨t, ht, o, rfl, ho⟩ := hk
      refine ⟨t, ht, fun c => - o c, by simp [negKey, Function.comp_def], ?_⟩
      intro c hc
      have := ho c hc
      rw [abs_neg]
      split at this
      · rw [if_pos (by assumption)]; exact this
      · rw [if_neg (by assumption)]; exact ⟨this.1, this.2.neg⟩
    · left
      unfold discretizeExpression at hk
      rw [if_neg hm] at hk
      simp only [List.map_cons, List.map_nil, List.mem_singleton] at hk
      rw [hk]; simp [negKey]

/-- C130, for the tight-binding dict: `discretize_symbolic` returns the onsite term and exactly one of each pair of opposite hoppings, the one whose first nonzero offset is positive. -/
theorem kept_hoppings (kpar : Axis → ℂ) (coords : List Axis) (hnd : coords.Nodup) (ham : Fin m → Fin m' → Expr) :
    (∀ p, p ∈ keepWanted (allHoppings kpar coords ham) ↔ p ∈ allHoppings kpar coords ham ∧ (p.1 = List.replicate coords.length 0 ∨ FirstPos p.1)) ∧
    (∃ p ∈ keepWanted (allHoppings kpar coords ham), p.1 = List.replicate coords.length 0) ∧
    (∀ p ∈ allHoppings kpar coords ham, ∃ q ∈ keepWanted (allHoppings kpar coords ham), q.1 = p.1 ∨ q.1 = negKey p.1) := by
  have hz : List.replicate coords.length 0 ∈ (allHoppings kpar coords ham).map Prod.fst := by
    rw [(all_spec kpar coords hnd ham).2.1]; left; simp
  have main : ∀ p, p ∈ keepWanted (allHoppings kpar coords ham) ↔ p ∈ allHoppings kpar coords ham ∧ (p.1 = List.replicate coords.length 0 ∨ FirstPos p.1) := by
    intro p
    unfold keepWanted
    rw [List.mem_filter, decide_eq_true_eq]
    apply and_congr_right
    intro hp
    rw [wanted_spec _ coords.length (all_spec kpar coords hnd ham).1 (all_keys_length kpar coords hnd ham) hz (all_keys_neg kpar coords hnd ham)]
    simp only [List.mem_map_of_mem hp, true_and]
  refine ⟨main, ?_, ?_⟩
  · obtain ⟨p, hp, he⟩ := List.mem_map.mp hz
    exact ⟨p, (main p).mpr ⟨hp, Or.inl he⟩, he⟩
  · intro p hp
    have hk := List.mem_map_of_mem (f := Prod.fst) hp
    have hl := all_keys_length kpar coords hnd ham p.1 hk
    rcases lt_trichotomy (List.replicate coords.length 0) p.1 with h | h | h
    · exact ⟨p, (main p).mpr ⟨hp, Or.inr ((pos_iff _ _ hl).mp h)⟩, Or.inl rfl⟩
    · exact ⟨p, (main p).mpr ⟨hp, Or.inl h.symm⟩, Or.inl rfl⟩
    · obtain ⟨q, hq, he⟩ := List.mem_map.mp (all_keys_neg kpar coords hnd ham p.1 hk)
      refine ⟨q, (main q).mpr ⟨hq, Or.inr ?_⟩, Or.inr he⟩
      have hlq : q.1.length = coords.length := by rw [he, negKey_length, hl]
      rw [← pos_iff _ _ hlq, ← neg_lt_iff _ _ hlq, he, negKey_negKey]
      exact h

end Kwant.Continuum
