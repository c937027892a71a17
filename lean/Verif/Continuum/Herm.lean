import Verif.Continuum.Sym
import Mathlib.Tactic.FinCases

/-! C131: a formally Hermitian Hamiltonian gives Hermitian hoppings, so that the half that is kept determines everything. -/

set_option linter.unusedSectionVars false

namespace Kwant.Continuum
open Matrix

variable {m : ℕ}

theorem word_cons (kpar : Axis → ℂ) (coords : List Axis) (f : Factor) (t : Term) : word kpar coords (f :: t) = atomsOf kpar coords f ++ word kpar coords t := by
  simp [word]

theorem sameOp_kern (kpar : Axis → ℂ) (coords : List Axis) {t t' : Term} (h : SameOp t t') (s : Pos) :
    kern s (word kpar coords t) = kern s (word kpar coords t') := by
  induction h with
  | refl t => rfl
  | symm _ ih => exact ih.symm
  | trans _ _ ih ih' => exact ih.trans ih'
  | cons f _ ih => rw [word_cons, word_cons]; exact kern_congr_append s _ _ _ ih
  | momSwap c e c' e' t =>
    simp only [word_cons, atomsOf]
    by_cases h : c ∈ coords <;> by_cases h' : c' ∈ coords
    · simp only [h, h', if_true]; exact kern_swap_rep s c c' _ _ _
    · simp only [h, h', if_true, if_false, List.singleton_append]; exact (kern_swap_rep_const s c _ _ _).symm
    · simp only [h, h', if_true, if_false, List.singleton_append]; exact kern_swap_rep_const s c' _ _ _
    · simp only [h, h', if_false, List.singleton_append]; exact kern_swap_M s _ _ _
  | momMul c n n' t =>
    simp only [word_cons, atomsOf]
    by_cases h : c ∈ coords
    · simp only [h, if_true]
      rw [show ((n : ℤ) + n').toNat = n + n' by omega, List.replicate_add, List.append_assoc]; rfl
    · simp only [h, if_false, List.singleton_append]
      rw [kern_mul_M]
      have : (fun _ : Pos => kpar c ^ ((n : ℤ) + n')) = fun _ => kpar c ^ (n : ℤ) * kpar c ^ (n' : ℤ) := by
        funext _
        rw [show ((n : ℤ) + n') = ((n + n' : ℕ) : ℤ) by push_cast; rfl]
        simp only [zpow_natCast, pow_add]
      rw [this]
  | fnSwap g g' t => simp only [word_cons, atomsOf, List.singleton_append]; exact kern_swap_M s _ _ _
  | fnMul g g' t => simp only [word_cons, atomsOf, List.singleton_append]; exact kern_mul_M s _ _ _
  | fnOne t => funext x o; simp only [word_cons, atomsOf, List.singleton_append, kern, one_mul]
  | constSwap a c e t =>
    simp only [word_cons, atomsOf]
    by_cases h : c ∈ coords
    · simp only [h, if_true, List.singleton_append]; exact kern_swap_rep_const s c a _ _
    · simp only [h, if_false, List.singleton_append]; exact kern_swap_M s _ _ _

theorem sameOp_degree {t t' : Term} (h : SameOp t t') (c : Axis) : degree c t = degree c t' := by
  induction h with
  | refl t => rfl
  | symm _ ih => exact ih.symm
  | trans _ _ ih ih' => exact ih.trans ih'
  | cons f _ ih => cases f <;> simp [degree, ih]
  | momSwap c e c' e' t => simp only [degree]; omega
  | momMul c n n' t => simp only [degree]; split <;> omega
  | fnSwap g g' t => rfl
  | fnMul g g' t => rfl
  | fnOne t => rfl
  | constSwap a c e t => rfl

theorem termVal_congr (kpar : Axis → ℂ) (coords : List Axis) {t t' : Term} (h : SameOp t t') (a x : Pos) (k : List ℤ) :
    termVal kpar coords t a x k = termVal kpar coords t' a x k := by
  have hc : ∀ c, cnt c (word kpar coords t) = cnt c (word kpar coords t') := fun c => by rw [cnt_word, cnt_word, sameOp_degree h c]
  have hf : fac (word kpar coords t) = fac (word kpar coords t') := by funext c; unfold fac; rw [hc c]
  unfold termVal facSpacing unscaled
  rw [sameOp_kern kpar coords h, hf]

theorem word_adj (kpar : Axis → ℂ) (hk : ∀ c, star (kpar c) = kpar c) (coords : List Axis) (t : Term) :
    word kpar coords (adjTerm t) = adjWord (word kpar coords t) := by
  induction t with
  | nil => rfl
  | cons f t ih =>
    have e1 : adjTerm (f :: t) = adjTerm t ++ adjTerm [f] := by simp [adjTerm]
    have e2 : ∀ v w, adjWord (v ++ w) = adjWord w ++ adjWord v := by intro v w; simp [adjWord]
    have e3 : ∀ s s', word kpar coords (s ++ s') = word kpar coords s ++ word kpar coords s' := by intro s s'; simp [word]
    rw [e1, e3, ih, word_cons, e2]
    congr 1
    cases f with
    | mom c e =>
      simp only [adjTerm, List.reverse_cons, List.reverse_nil, List.nil_append, List.map_cons, List.map_nil, word, List.flatMap_cons, List.flatMap_nil,
        List.append_nil, atomsOf]
      split
      · simp [adjWord, adjAtom]
      · simp only [adjWord, List.reverse_cons, List.reverse_nil, List.nil_append, List.map_cons, List.map_nil, adjAtom, star_zpow₀, hk]
    | fn g => rfl

theorem degree_append (c : Axis) (s t : Term) : degree c (s ++ t) = degree c s + degree c t := by
  induction s with
  | nil => simp [degree]
  | cons f s ih => cases f <;> simp [degree, ih, add_assoc]

theorem degree_adj (t : Term) (c : Axis) : degree c (adjTerm t) = degree c t := by
  induction t with
  | nil => rfl
  | cons f t ih =>
    have e1 : adjTerm (f :: t) = adjTerm t ++ adjTerm [f] := by simp [adjTerm]
    rw [e1, degree_append, ih]
    cases f <;> simp [adjTerm, degree] <;> omega

theorem gridAt_pt (coords : List Axis) (hnd : coords.Nodup) (w : List Atom) (k : List ℤ) (hk : k.length = coords.length) (a x : Pos) :
    gridAt coords k a x = pt (facSpacing w a) x (unscaled coords w k) := by
  conv_lhs => rw [← map_offAt coords hnd k hk]
  rw [gridAt_map coords hnd]
  funext c
  unfold pt facSpacing unscaled
  have hp : (fac w c : ℝ) ≠ 0 := by exact_mod_cast (fac_pos w c).ne'
  by_cases hc : c ∈ coords
  · rw [if_pos hc]; push_cast; field_simp
  · have : offAt coords k c = 0 := by
      unfold offAt
      rw [List.find?_eq_none.mpr]
      · rfl
      · rintro ⟨d, z⟩ hp; have := (List.of_mem_zip hp).1
        simp only [decide_eq_true_eq]; rintro rfl; exact hc this
    rw [if_neg hc, this]; simp

theorem offAt_neg (coords : List Axis) (k : List ℤ) (c : Axis) : offAt coords (negKey k) c = - offAt coords k c := by
  unfold offAt negKey
  induction coords generalizing k with
  | nil => simp
  | cons d l ih =>
    cases k with
    | nil => simp
    | cons z k =>
      simp only [List.map_cons, List.zip_cons_cons, List.find?_cons]
      by_cases hd : d = c
      · simp [hd]
      · simp only [hd, decide_false]; exact ih k

theorem termVal_adj (kpar : Axis → ℂ) (hk : ∀ c, star (kpar c) = kpar c) (coords : List Axis) (hnd : coords.Nodup) (t : Term) (a x : Pos) (k : List ℤ)
    (hl : k.length = coords.length) :
    termVal kpar coords (adjTerm t) a (gridAt coords k a x) (negKey k) = star (termVal kpar coords t a x k) := by
  have hc : ∀ c, cnt c (word kpar coords (adjTerm t)) = cnt c (word kpar coords t) := fun c => by rw [cnt_word, cnt_word, degree_adj]
  have hf : fac (word kpar coords (adjTerm t)) = fac (word kpar coords t) := by funext c; unfold fac; rw [hc c]
  rw [gridAt_pt coords hnd (word kpar coords t) k hl]
  have hu : unscaled coords (word kpar coords (adjTerm t)) (negKey k) = - unscaled coords (word kpar coords t) k := by
    funext c; unfold unscaled; rw [offAt_neg, hf]; simp
  have hs : facSpacing (word kpar coords (adjTerm t)) a = facSpacing (word kpar coords t) a := by unfold facSpacing; rw [hf]
  unfold termVal
  rw [hu, hs, word_adj kpar hk, kern_adj]

theorem value_unique {K V : Type*} [DecidableEq K] (d : List (K × V)) (f : V → ℂ) (h : (d.map Prod.fst).Nodup) (p : K × V) (hp : p ∈ d) :
    (d.map fun q => if q.1 = p.1 then f q.2 else 0).sum = f p.2 := by
  induction d with
  | nil => simp at hp
  | cons q d ih =>
    simp only [List.map_cons, List.nodup_cons] at h
    simp only [List.map_cons, List.sum_cons]
    rcases List.mem_cons.mp hp with rfl | hp
    · have : (d.map fun q => if q.1 = p.1 then f q.2 else 0).sum = 0 := by
        apply List.sum_eq_zero
        intro z hz; obtain ⟨q, hq, rfl⟩ := List.mem_map.mp hz
        rw [if_neg]; intro e; exact h.1 (e ▸ List.mem_map_of_mem hq)
      simp [this]
    · rw [ih h.2 hp, if_neg, zero_add]
      intro e; exact h.1 (e ▸ List.mem_map_of_mem hp)

theorem hermitian_sum (kpar : Axis → ℂ) (hk : ∀ c, star (kpar c) = kpar c) (coords : List Axis) (hnd : coords.Nodup) (ham : Fin m → Fin m → Expr)
    (hh : FormallyHermitian ham) (i j : Fin m) (a x : Pos) (k : List ℤ) (hl : k.length = coords.length) :
    ((ham j i).map fun t => termVal kpar coords t a (gridAt coords k a x) (negKey k)).sum = star ((ham i j).map fun t => termVal kpar coords t a x k).sum := by
  obtain ⟨l, hperm, hl2⟩ := hh i j
  rw [(hperm.map _).sum_eq]
  have : (l.map fun t => termVal kpar coords t a (gridAt coords k a x) (negKey k)) =
      ((ham i j).map adjTerm).map fun t => termVal kpar coords t a (gridAt coords k a x) (negKey k) := by
    clear hperm
    generalize (ham i j).map adjTerm = l' at hl2
    induction hl2 with
    | nil => rfl
    | cons h _ ih => rw [List.map_cons, List.map_cons, ih, termVal_congr kpar coords h]
  rw [this, List.map_map, ← starRingEnd_apply, map_list_sum, List.map_map]
  congr 1
  apply List.map_congr_left
  intro t _
  simp only [Function.comp, starRingEnd_apply]
  exact termVal_adj kpar hk coords hnd t a x k hl

/-- C131.  If the Hamiltonian is formally Hermitian (and the parameters `k_c` of the coordinates that are not discretized are real), then for every hopping with offset `k` there is one
with offset `-k`, and its coefficient at the point reached by the hopping is the adjoint of the coefficient at the starting point; the onsite term is Hermitian. -/
theorem discretize_hermitian (kpar : Axis → ℂ) (hk : ∀ c, star (kpar c) = kpar c) (coords : List Axis) (hnd : coords.Nodup) (ham : Fin m → Fin m → Expr)
    (hh : FormallyHermitian ham) (p) (hp : p ∈ allHoppings kpar coords ham) :
    ∃ q ∈ allHoppings kpar coords ham, q.1 = negKey p.1 ∧ ∀ a x, q.2 a (gridAt coords p.1 a x) = (p.2 a x)ᴴ := by
  obtain ⟨h1, h2, h3, h4⟩ := all_spec kpar coords hnd ham
  have hkey := List.mem_map_of_mem (f := Prod.fst) hp
  have hl := all_keys_length kpar coords hnd ham p.1 hkey
  obtain ⟨q, hq, he⟩ := List.mem_map.mp (all_keys_neg kpar coords hnd ham p.1 hkey)
  refine ⟨q, hq, he, ?_⟩
  intro a x
  ext i j
  rw [Matrix.conjTranspose_apply]
  have e1 := h4 a x j i p.1 hl
  rw [value_unique (allHoppings kpar coords ham) (fun v => v a x j i) h1 p hp] at e1
  have e2 := h4 a (gridAt coords p.1 a x) i j q.1 (by rw [he, negKey_length, hl])
  rw [value_unique (allHoppings kpar coords ham) (fun v => v a (gridAt coords p.1 a x) i j) h1 q hq, he] at e2
  rw [e2, e1]
  exact hermitian_sum kpar hk coords hnd ham hh j i a x p.1 hl

end Kwant.Continuum
