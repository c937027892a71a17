import Verif.Gauge.Composite

/-!
# The magnetic gauge of a system with leads: the spanning tree
-/
set_option linter.unusedSectionVars false

namespace Kwant.Gauge
open Kwant.Dijkstra Complex

/-! ## Matrices -/

section
variable {E : List ((ℕ × ℕ) × ℝ)} {N : ℕ} {S : Set (ℕ × ℕ)}

/-- The distance matrix. -/
noncomputable abbrev matOf (E : List ((ℕ × ℕ) × ℝ)) : Csr := distanceMatrix (E.map Prod.fst) (entryDist E)

theorem csr_coo (hn : (E.map Prod.fst).Nodup) : csrOf (cooOf E) = matOf E := by
  have h : (cooOf E).map Prod.fst = E.map Prod.fst := by simp [cooOf, Function.comp_def]
  rw [csr_dist (d := entryDist E), h]
  intro e he
  obtain ⟨f, hf, rfl⟩ := List.mem_map.mp he
  simp only [entryDist_mem hn hf]

theorem entryAt_mem {k : ℕ} (hk : k < E.length) : entryAt E k ∈ E := by
  unfold entryAt
  rw [List.getD_eq_getElem?_getD, List.getElem?_eq_getElem hk]
  exact List.getElem_mem _

theorem entryAt_of_mem {e : (ℕ × ℕ) × ℝ} (he : e ∈ E) : ∃ k < E.length, entryAt E k = e := by
  obtain ⟨k, hk, h⟩ := List.mem_iff_getElem.mp he
  refine ⟨k, hk, ?_⟩
  unfold entryAt
  rw [List.getD_eq_getElem?_getD, List.getElem?_eq_getElem hk, h]; rfl

theorem entryAt_inj (hn : (E.map Prod.fst).Nodup) {k l : ℕ} (hk : k < E.length) (hl : l < E.length)
    (h : (entryAt E k).1 = (entryAt E l).1) : k = l := by
  unfold entryAt at h
  rw [List.getD_eq_getElem?_getD, List.getElem?_eq_getElem hk, List.getD_eq_getElem?_getD, List.getElem?_eq_getElem hl] at h
  simp only [Option.getD_some] at h
  have h1 : (E.map Prod.fst)[k]'(by simpa using hk) = (E.map Prod.fst)[l]'(by simpa using hl) := by simp [h]
  exact (List.Nodup.getElem_inj_iff hn).mp h1

theorem mem_remaining (hn : (E.map Prod.fst).Nodup) {del : List ℕ} {k : ℕ} (hk : k < E.length) :
    (entryAt E k).1 ∈ remainingLinks E del ↔ k ∉ del := by
  unfold remainingLinks
  simp only [List.mem_map, List.mem_filter, List.mem_range, decide_eq_true_eq]
  constructor
  · rintro ⟨l, ⟨hl, hd⟩, h⟩
    rwa [← entryAt_inj hn hl hk h]
  · intro h
    exact ⟨k, ⟨hk, h⟩, rfl⟩

theorem map_entryAt (E : List ((ℕ × ℕ) × ℝ)) : (List.range E.length).map (entryAt E) = E := by
  apply List.ext_getElem
  · simp
  · intro k h1 h2
    simp only [List.getElem_map, List.getElem_range]
    unfold entryAt
    rw [List.getD_eq_getElem?_getD, List.getElem?_eq_getElem h2]; rfl

theorem csr_cut (hn : (E.map Prod.fst).Nodup) (del : List ℕ) :
    csrOf (cutCoo E del) = restrict (matOf E) {e | e ∈ remainingLinks E del} := by
  classical
  have h : (cutCoo E del).map Prod.fst = E.map Prod.fst := by
    conv_rhs => rw [← map_entryAt E]
    simp [cutCoo, Function.comp_def]
  have := csr_restrict (l := cutCoo E del) (d := entryDist E) (S := {e | e ∈ remainingLinks E del}) ?_
  · rw [this, h]
  · intro e he
    obtain ⟨k, hk, rfl⟩ := List.mem_map.mp he
    have hk := List.mem_range.mp hk
    have h1 := mem_remaining hn hk (del := del)
    have h2 := entryDist_mem hn (entryAt_mem hk)
    simp only [Set.mem_ofPred_eq, h1, h2]
    by_cases hd : k ∈ del <;> simp [hd]

theorem assignVal_restrict (hl : Links (E.map Prod.fst) N) {e : (ℕ × ℕ) × ℝ} (he : e ∈ E) :
    assignVal (restrict (matOf E) S) (e.2 : WithTop ℝ) e.1.1 e.1.2 = some (restrict (matOf E) (S ∪ {e.1})) := by
  have hm : (e.1.2, ((entryDist E e.1.1 e.1.2 : ℝ) : WithTop ℝ)) ∈ matOf E e.1.1 :=
    mem_distanceMatrix.mpr ⟨List.mem_map_of_mem he, rfl⟩
  have h := assign_restrict (S := S) (nodup_distanceMatrix (dist := entryDist E) hl.nodup e.1.1) hm
  unfold assignCsr at h
  cases hf : (restrict (matOf E) S e.1.1).findIdx? (fun f => f.1 = e.1.2) with
  | none => rw [hf] at h; cases h
  | some k =>
    rw [hf] at h
    simp only at h
    cases hv : (matOf E e.1.1)[k]? with
    | none => rw [hv] at h; cases h
    | some v =>
      rw [hv] at h
      have hk : v.1 = e.1.2 := by
        rw [List.findIdx?_eq_some_iff_getElem] at hf
        obtain ⟨hk, h1, _⟩ := hf
        have h2 : (restrict (matOf E) S e.1.1)[k]? = some ((restrict (matOf E) S e.1.1)[k]) := List.getElem?_eq_getElem hk
        simp only [restrict, List.getElem?_map] at h2
        have h3 : ((restrict (matOf E) S e.1.1)[k]).1 = v.1 := by
          simp only [restrict, List.getElem_map]
          have := List.getElem?_eq_some_iff.mp hv
          obtain ⟨h4, h5⟩ := this
          rw [h5]
        rw [← h3]; simpa using h1
      have hw : v.2 = ((e.2 : ℝ) : WithTop ℝ) := by
        have hmem : v ∈ matOf E e.1.1 := List.mem_of_getElem? hv
        obtain ⟨v1, v2⟩ := v
        simp only at hk
        subst hk
        rw [(mem_distanceMatrix.mp hmem).2, entryDist_mem hl.nodup he]
      simp only [hw] at h
      unfold assignVal
      rw [hf]
      simpa using h

theorem assignBoth_restrict (hl : Links (E.map Prod.fst) N) (hsy : ∀ e ∈ E, (e.1.swap, e.2) ∈ E) {e : (ℕ × ℕ) × ℝ}
    (he : e ∈ E) : assignBoth (restrict (matOf E) S) e = some (restrict (matOf E) (S ∪ {e.1, e.1.swap})) := by
  unfold assignBoth
  rw [assignVal_restrict hl he, Option.bind_some]
  have := assignVal_restrict (S := S ∪ {e.1}) hl (hsy e he)
  simp only [Prod.fst_swap, Prod.snd_swap] at this
  rw [this, Set.union_assoc]
  rfl

theorem assignAll_restrict (hl : Links (E.map Prod.fst) N) (hsy : ∀ e ∈ E, (e.1.swap, e.2) ∈ E) :
    ∀ (l : List ((ℕ × ℕ) × ℝ)) (S : Set (ℕ × ℕ)), (∀ e ∈ l, e ∈ E) →
      assignAll l (restrict (matOf E) S) =
        some (restrict (matOf E) (S ∪ {e | ∃ f ∈ l, e = f.1 ∨ e = f.1.swap})) := by
  intro l
  induction l with
  | nil => intro S _; simp [assignAll]
  | cons a l ih =>
    intro S h
    have h1 : assignAll (a :: l) (restrict (matOf E) S) = assignAll l (restrict (matOf E) (S ∪ {a.1, a.1.swap})) := by
      simp only [assignAll, List.foldl_cons, Option.bind_some]
      rw [assignBoth_restrict hl hsy (h a (by simp))]
    rw [h1, ih _ fun e he => h e (by simp [he])]
    congr 2
    ext e
    simp only [Set.mem_union, Set.mem_insert_iff, Set.mem_singleton_iff, Set.mem_ofPred_eq, List.mem_cons,
      exists_eq_or_imp, or_assoc]

end

/-! ## The interior links -/

section
variable {E : List ((ℕ × ℕ) × ℝ)} {N : ℕ} {patch : ℕ → ℤ}

/-- The links with an end in a patch. -/
def patchLinks (E : List ((ℕ × ℕ) × ℝ)) (patch : ℕ → ℤ) : Set (ℕ × ℕ) :=
  {e | e ∈ E.map Prod.fst ∧ (patch e.1 > -1 ∨ patch e.2 > -1)}

theorem mem_interfaceSites (hl : Links (E.map Prod.fst) N) {x : ℕ} :
    x ∈ interfaceSites E patch ↔ ¬ patch x > -1 ∧ ∃ y, (x, y) ∈ E.map Prod.fst ∧ patch y > -1 := by
  unfold interfaceSites
  simp only [List.mem_map, List.mem_filter, decide_eq_true_eq]
  constructor
  · rintro ⟨e, ⟨he, hx⟩, rfl⟩
    have hm : e.1 ∈ E.map Prod.fst := List.mem_map_of_mem he
    by_cases h1 : patch e.1.1 > -1
    · have h2 : ¬ patch e.1.2 > -1 := by rcases hx with ⟨_, h⟩ | ⟨_, h⟩; exacts [h, absurd h1 h]
      rw [if_neg (not_not.mpr h1)]
      obtain ⟨f, hf, hfe⟩ := List.mem_map.mp (hl.symm _ hm)
      exact ⟨h2, e.1.1, ⟨f, hf, hfe⟩, h1⟩
    · have h2 : patch e.1.2 > -1 := by rcases hx with ⟨h, _⟩ | ⟨h, _⟩; exacts [absurd h h1, h]
      rw [if_pos h1]
      exact ⟨h1, e.1.2, ⟨e, he, rfl⟩, h2⟩
  · rintro ⟨h1, y, ⟨e, he, h⟩, h2⟩
    refine ⟨e, ⟨he, ?_⟩, ?_⟩
    · rw [h]; exact .inr ⟨h2, h1⟩
    · rw [h]; simp only [h1, not_false_eq_true, if_true]

/-- The links that are cut. -/
theorem mem_interior (hl : Links (E.map Prod.fst) N) {k : ℕ} :
    k ∈ interiorLinks E patch ↔ k < E.length ∧ ¬ patch (entryAt E k).1.1 > -1 ∧ ¬ patch (entryAt E k).1.2 > -1 ∧
      ((entryAt E k).1.1 ∈ interfaceSites E patch ∨ (entryAt E k).1.2 ∈ interfaceSites E patch) := by
  unfold interiorLinks weWant
  simp only [List.mem_filter, List.mem_range, decide_eq_true_eq]
  constructor
  · rintro ⟨hk, ⟨h1, h2⟩ | ⟨h1, h2⟩⟩
    · exact ⟨hk, ((mem_interfaceSites hl).mp h1).1, h2, .inl h1⟩
    · exact ⟨hk, h2, ((mem_interfaceSites hl).mp h1).1, .inr h1⟩
  · rintro ⟨hk, h1, h2, h | h⟩
    · exact ⟨hk, .inl ⟨h, h2⟩⟩
    · exact ⟨hk, .inr ⟨h, h1⟩⟩

/-- The links that remain: those of the patches, and those without interface sites. -/
theorem remaining_iff (hl : Links (E.map Prod.fst) N) {e : ℕ × ℕ} :
    e ∈ remainingLinks E (interiorLinks E patch) ↔ e ∈ E.map Prod.fst ∧
      (e ∈ patchLinks E patch ∨ (e.1 ∉ interfaceSites E patch ∧ e.2 ∉ interfaceSites E patch)) := by
  have h0 : e ∈ remainingLinks E (interiorLinks E patch) → e ∈ E.map Prod.fst := by
    intro h
    unfold remainingLinks at h
    obtain ⟨k, hk, rfl⟩ := List.mem_map.mp h
    exact List.mem_map_of_mem (entryAt_mem (List.mem_range.mp (List.mem_filter.mp hk).1))
  constructor
  · intro h
    have hm := h0 h
    refine ⟨hm, ?_⟩
    obtain ⟨f, hf, rfl⟩ := List.mem_map.mp hm
    obtain ⟨k, hk, rfl⟩ := entryAt_of_mem hf
    rw [mem_remaining hl.nodup hk, mem_interior hl] at h
    by_contra hc
    rw [not_or] at hc
    apply h
    have h1 : ¬ patch (entryAt E k).1.1 > -1 := fun h' => hc.1 ⟨hm, .inl h'⟩
    have h2 : ¬ patch (entryAt E k).1.2 > -1 := fun h' => hc.1 ⟨hm, .inr h'⟩
    refine ⟨hk, h1, h2, ?_⟩
    by_contra h3
    rw [not_or] at h3
    exact hc.2 h3
  · rintro ⟨hm, h⟩
    obtain ⟨f, hf, rfl⟩ := List.mem_map.mp hm
    obtain ⟨k, hk, rfl⟩ := entryAt_of_mem hf
    rw [mem_remaining hl.nodup hk, mem_interior hl]
    rintro ⟨_, h1, h2, h3⟩
    rcases h with ⟨_, h | h⟩ | ⟨h4, h5⟩
    · exact h1 h
    · exact h2 h
    · rcases h3 with h3 | h3
      · exact h4 h3
      · exact h5 h3

theorem patchLinks_symm (hl : Links (E.map Prod.fst) N) {e : ℕ × ℕ} (h : e ∈ patchLinks E patch) :
    e.swap ∈ patchLinks E patch := ⟨hl.symm _ h.1, h.2.symm⟩

theorem remaining_symm (hl : Links (E.map Prod.fst) N) {e : ℕ × ℕ}
    (h : e ∈ remainingLinks E (interiorLinks E patch)) : e.swap ∈ remainingLinks E (interiorLinks E patch) := by
  rw [remaining_iff hl] at h ⊢
  refine ⟨hl.symm _ h.1, ?_⟩
  rcases h.2 with h | h
  · exact .inl (patchLinks_symm hl h)
  · exact .inr ⟨h.2, h.1⟩

/-- Sites at the links of the patches are patch sites or interface sites; other remaining links avoid them. -/
theorem remaining_split (hl : Links (E.map Prod.fst) N) {x y x' y' : ℕ} (h : (x, y) ∈ patchLinks E patch)
    (h' : (x', y') ∈ remainingLinks E (interiorLinks E patch)) (h2 : (x', y') ∉ patchLinks E patch) : x ≠ x' ∧ x ≠ y' := by
  obtain ⟨hm, h3⟩ := (remaining_iff hl).mp h'
  rcases h3 with h3 | ⟨h3, h4⟩
  · exact absurd h3 h2
  have h5 : ∀ z, (z = x' ∨ z = y') → ¬ patch z > -1 ∧ z ∉ interfaceSites E patch := by
    rintro z (rfl | rfl)
    · exact ⟨fun h => h2 ⟨hm, .inl h⟩, h3⟩
    · exact ⟨fun h => h2 ⟨hm, .inr h⟩, h4⟩
  have h6 : ¬ (¬ patch x > -1 ∧ x ∉ interfaceSites E patch) := by
    rintro ⟨h6, h7⟩
    apply h7
    rw [mem_interfaceSites hl]
    refine ⟨h6, y, h.1, ?_⟩
    rcases h.2 with h | h
    · exact absurd h h6
    · exact h
  exact ⟨fun e => h6 (h5 x (.inl e)), fun e => h6 (h5 x (.inr e))⟩

end

/-! ## The graph of the components -/

section
variable {E : List ((ℕ × ℕ) × ℝ)} {labels : ℕ → ℕ}

/-- Invariant of the loop of `_make_metatree`. -/
structure MInv (E : List ((ℕ × ℕ) × ℝ)) (labels : ℕ → ℕ) (done : List ℕ) (mg : ℕ × ℕ → ℕ) : Prop where
  symm : ∀ e, mg e.swap = mg e
  mem : ∀ a b, mg (a, b) ≠ 0 → a ≠ b ∧ mg (a, b) ∈ done ∧
    ((labels (entryAt E (mg (a, b))).1.1 = a ∧ labels (entryAt E (mg (a, b))).1.2 = b) ∨
      (labels (entryAt E (mg (a, b))).1.1 = b ∧ labels (entryAt E (mg (a, b))).1.2 = a))
  cover : ∀ k ∈ done, k ≠ 0 → labels (entryAt E k).1.1 ≠ labels (entryAt E k).1.2 →
    mg (labels (entryAt E k).1.1, labels (entryAt E k).1.2) ≠ 0

theorem metaStep_inv {done : List ℕ} {mg : ℕ × ℕ → ℕ} (h : MInv E labels done mg) (k : ℕ)
    (h0 : k = 0 → ∀ e, mg e = 0) : MInv E labels (done ++ [k]) (metaStep E labels mg k) := by
  unfold metaStep
  simp only
  set i := labels (entryAt E k).1.1 with hi
  set j := labels (entryAt E k).1.2 with hj
  by_cases hij : i = j
  · rw [if_pos hij]
    refine ⟨h.symm, ?_, ?_⟩
    · intro a b hab
      obtain ⟨h1, h2, h3⟩ := h.mem a b hab
      exact ⟨h1, by simp [h2], h3⟩
    · intro l hl hl0 hne
      rcases List.mem_append.mp hl with hl | hl
      · exact h.cover l hl hl0 hne
      · obtain rfl : l = k := by simpa using hl
        exact absurd hij hne
  · rw [if_neg hij]
    have hji : (j, i) ≠ (i, j) := by
      intro hc; exact hij (Prod.mk.inj hc).2
    split_ifs with hc
    · have hval : ∀ e, Function.update (Function.update mg (i, j) k) (j, i) k e =
          if e = (j, i) ∨ e = (i, j) then k else mg e := by
        intro e
        by_cases h1 : e = (j, i)
        · subst h1; simp
        · rw [Function.update_of_ne h1]
          by_cases h2 : e = (i, j)
          · subst h2; simp
          · rw [Function.update_of_ne h2]; simp [h1, h2]
      refine ⟨?_, ?_, ?_⟩
      · intro e
        rw [hval, hval, h.symm]
        have : (e.swap = (j, i) ∨ e.swap = (i, j)) ↔ (e = (j, i) ∨ e = (i, j)) := by
          rw [Prod.swap_eq_iff_eq_swap, Prod.swap_eq_iff_eq_swap]; simp only [Prod.swap_prod_mk]; tauto
        simp only [this]
      · intro a b hab
        rw [hval] at hab ⊢
        by_cases hc' : (a, b) = (j, i) ∨ (a, b) = (i, j)
        · rw [if_pos hc']
          rcases hc' with hc' | hc'
          · obtain ⟨rfl, rfl⟩ := Prod.mk.inj hc'
            exact ⟨fun h => hij h.symm, by simp, .inr ⟨hi.symm, hj.symm⟩⟩
          · obtain ⟨rfl, rfl⟩ := Prod.mk.inj hc'
            exact ⟨hij, by simp, .inl ⟨hi.symm, hj.symm⟩⟩
        · rw [if_neg hc'] at hab ⊢
          obtain ⟨h1, h2, h3⟩ := h.mem a b hab
          exact ⟨h1, by simp [h2], h3⟩
      · intro l hl hl0 hne
        rw [hval]
        split_ifs with hc'
        · intro hk0
          rcases List.mem_append.mp hl with hl' | hl'
          · exact h.cover l hl' hl0 hne (h0 hk0 _)
          · obtain rfl : l = k := by simpa using hl'
            exact hl0 hk0
        · rcases List.mem_append.mp hl with hl | hl
          · exact h.cover l hl hl0 hne
          · obtain rfl : l = k := by simpa using hl
            exact absurd (.inr rfl) hc'
    · refine ⟨h.symm, ?_, ?_⟩
      · intro a b hab
        obtain ⟨h1, h2, h3⟩ := h.mem a b hab
        exact ⟨h1, by simp [h2], h3⟩
      · intro l hl hl0 hne
        rcases List.mem_append.mp hl with hl | hl
        · exact h.cover l hl hl0 hne
        · obtain rfl : l = k := by simpa using hl
          intro hz
          exact hc (.inl hz)

theorem meta_fold (del : List ℕ) (hsort : del.Pairwise (· < ·)) : MInv E labels del (del.foldl (metaStep E labels) fun _ => 0) := by
  have key : ∀ (l done : List ℕ) (mg : ℕ × ℕ → ℕ), (done ++ l).Pairwise (· < ·) → MInv E labels done mg →
      (done = [] → ∀ e, mg e = 0) → MInv E labels (done ++ l) (l.foldl (metaStep E labels) mg) := by
    intro l
    induction l with
    | nil => intro done mg _ h _; simpa using h
    | cons k l ih =>
      intro done mg hp h h0
      have h1 := metaStep_inv h k (fun hk => h0 (by
        by_contra hne
        obtain ⟨d, ds, rfl⟩ := List.exists_cons_of_ne_nil hne
        have := (List.pairwise_append.mp hp).2.2 d (by simp) k (by simp)
        omega))
      have h2 := ih (done ++ [k]) _ (by simpa using hp) h1 (by simp)
      simpa using h2
  have := key del [] (fun _ => 0) (by simpa using hsort) ⟨fun _ => rfl, by simp, by simp⟩ (fun _ _ => rfl)
  simpa using this

theorem interior_sorted (E : List ((ℕ × ℕ) × ℝ)) (patch : ℕ → ℤ) : (interiorLinks E patch).Pairwise (· < ·) := by
  unfold interiorLinks
  exact List.Pairwise.filter _ (List.pairwise_lt_range)

end

/-! ## The spanning tree -/

section
variable {E : List ((ℕ × ℕ) × ℝ)} {N : ℕ} {patch : ℕ → ℤ}
variable (components : List (ℕ × ℕ) → ℕ → ℕ) (mst : (ℕ × ℕ → ℕ) → List (ℕ × ℕ))
variable (pick : List ℕ → (ℕ → ℝ) → ℕ) (choose : List ℕ → ℕ)

/-- The links of the tree together with all links of the patches: they connect the ends of every link, and all their closed
loops come from the patches. -/
theorem tree_spec (hl : Links (E.map Prod.fst) N) (hd : ∀ e ∈ E, 0 ≤ e.2) (hsy : ∀ e ∈ E, (e.1.swap, e.2) ∈ E)
    (hpick : MinPick pick) (hch : Choose choose) (hcc : Components components) (hmst : SpanningTree mst)
    (hint : interiorLinks E patch ≠ []) :
    ∃ (tree sub : Csr) (S : Set (ℕ × ℕ)), spanningTreeComposite components mst pick choose E patch N = some tree ∧
      assignAll (E.filter fun e => patch e.1.1 > -1 ∨ patch e.1.2 > -1) tree = some sub ∧
      sub = restrict (matOf E) S ∧ (∀ e ∈ S, e ∈ E.map Prod.fst) ∧ (∀ e ∈ S, e.swap ∈ S) ∧
      (∀ x y, (x, y) ∈ E.map Prod.fst → Conn S x y) ∧ (∀ e ∈ patchLinks E patch, e ∈ S) ∧
      ∀ (M : Type) [CommGroup M] (f : ℕ → ℕ → M), (∀ i j, f j i = (f i j)⁻¹) →
        (∃ φ : ℕ → M, ∀ i j, (i, j) ∈ patchLinks E patch → f i j = (φ i)⁻¹ * φ j) →
        ∃ φ : ℕ → M, ∀ i j, (i, j) ∈ S → f i j = (φ i)⁻¹ * φ j := by
  classical
  set del := interiorLinks E patch with hdel
  set C : Set (ℕ × ℕ) := {e | e ∈ remainingLinks E del} with hC
  have hCl : ∀ e ∈ C, e ∈ E.map Prod.fst := fun e he => ((remaining_iff hl).mp he).1
  have hCs : ∀ e ∈ C, e.swap ∈ C := fun e he => remaining_symm hl he
  obtain ⟨F, e1, f1, f2, f3, f4⟩ := forest_spec_from pick choose hl (entryDist_nonneg hd) hpick hch hCl hCs
  set labels := components (remainingLinks E del) with hlab
  have hlabels : ∀ i j, labels i = labels j ↔ Conn C i j := fun i j => hcc _ (fun e he => hCs e he) i j
  set mg := metaGraph components E del with hmg
  have hinv : MInv E labels del mg := meta_fold del (interior_sorted E patch)
  have hfin : {e | mg e ≠ 0}.Finite := by
    apply ((del.toFinset.image fun k => (labels (entryAt E k).1.1, labels (entryAt E k).1.2)) ∪
      (del.toFinset.image fun k => (labels (entryAt E k).1.2, labels (entryAt E k).1.1))).finite_toSet.subset
    rintro ⟨a, b⟩ h
    obtain ⟨_, h2, h3⟩ := hinv.mem a b h
    simp only [Finset.coe_union, Set.mem_union, Finset.coe_image, Set.mem_image, List.coe_toFinset, Set.mem_ofPred_eq]
    rcases h3 with ⟨h3, h4⟩ | ⟨h3, h4⟩
    · exact .inl ⟨_, h2, by rw [h3, h4]⟩
    · exact .inr ⟨_, h2, by rw [h3, h4]⟩
  obtain ⟨m1, m2, m3⟩ := hmst mg hfin hinv.symm (fun a => by
    by_contra h; exact (hinv.mem a a h).1 rfl)
  set T : Set (ℕ × ℕ) := {e | ∃ k, (∃ t ∈ mst mg, mg t = k) ∧ (e = (entryAt E k).1 ∨ e = (entryAt E k).1.swap)} with hT
  have hdellt : ∀ k ∈ del, k < E.length := fun k hk => ((mem_interior hl).mp hk).1
  have htree : ∀ t ∈ mst mg, mg t ∈ del := fun t ht => (hinv.mem t.1 t.2 (m1 t ht)).2.1
  have hmapE : ∀ e ∈ (metaTree components mst E del).dedup.map (entryAt E), e ∈ E := by
    intro e he
    obtain ⟨k, hk, rfl⟩ := List.mem_map.mp he
    rw [List.mem_dedup] at hk
    obtain ⟨t, ht, rfl⟩ := List.mem_map.mp hk
    exact entryAt_mem (hdellt _ (htree t ht))
  have hTset : {e | ∃ f ∈ (metaTree components mst E del).dedup.map (entryAt E), e = f.1 ∨ e = f.1.swap} = T := by
    ext e
    simp only [Set.mem_ofPred_eq, List.mem_map, List.mem_dedup, metaTree, ← hmg, hT]
    constructor
    · rintro ⟨f, ⟨k, ⟨t, ht, rfl⟩, rfl⟩, h⟩
      exact ⟨_, ⟨t, ht, rfl⟩, h⟩
    · rintro ⟨k, ⟨t, ht, rfl⟩, h⟩
      exact ⟨_, ⟨_, ⟨t, ht, rfl⟩, rfl⟩, h⟩
  have e2 : spanningTreeComposite components mst pick choose E patch N = some (restrict (matOf E) (F ∪ T)) := by
    unfold spanningTreeComposite
    simp only [← hdel]
    rw [if_neg hint, csr_cut hl.nodup, e1, Option.bind_some, assignAll_restrict hl hsy _ _ hmapE, hTset]
  set P := patchLinks E patch with hP
  have hPset : {e | ∃ f ∈ E.filter (fun e => decide (patch e.1.1 > -1 ∨ patch e.1.2 > -1)), e = f.1 ∨ e = f.1.swap} = P := by
    ext e
    simp only [Set.mem_ofPred_eq, List.mem_filter, decide_eq_true_eq]
    constructor
    · rintro ⟨f, ⟨hf, h⟩, rfl | rfl⟩
      · exact ⟨List.mem_map_of_mem hf, h⟩
      · exact patchLinks_symm hl ⟨List.mem_map_of_mem hf, h⟩
    · rintro ⟨he, h⟩
      obtain ⟨f, hf, rfl⟩ := List.mem_map.mp he
      exact ⟨f, ⟨hf, h⟩, .inl rfl⟩
  have e3 := assignAll_restrict hl hsy (E.filter fun e => patch e.1.1 > -1 ∨ patch e.1.2 > -1) (F ∪ T)
    (fun e he => (List.mem_filter.mp he).1)
  rw [hPset] at e3
  have hPC : ∀ e ∈ P, e ∈ C := fun e he => (remaining_iff hl).mpr ⟨he.1, .inl he⟩
  have hTl : ∀ e ∈ T, e ∈ E.map Prod.fst := by
    rintro e ⟨k, ⟨t, ht, rfl⟩, rfl | rfl⟩
    · exact List.mem_map_of_mem (entryAt_mem (hdellt _ (htree t ht)))
    · exact hl.symm _ (List.mem_map_of_mem (entryAt_mem (hdellt _ (htree t ht))))
  have hTs : ∀ e ∈ T, e.swap ∈ T := by
    rintro e ⟨k, hk, rfl | rfl⟩
    · exact ⟨k, hk, .inr rfl⟩
    · exact ⟨k, hk, .inl (Prod.swap_swap _)⟩
  have hSs : ∀ e ∈ F ∪ T ∪ P, e.swap ∈ F ∪ T ∪ P := by
    rintro e ((h | h) | h)
    · exact .inl (.inl (f2 e h))
    · exact .inl (.inr (hTs e h))
    · exact .inr (patchLinks_symm hl h)
  -- connections
  have hconnC : ∀ x y, Conn C x y → Conn (F ∪ T ∪ P) x y := by
    intro x y h
    induction h with
    | refl => exact .refl
    | tail _ he ih => exact ih.trans (conn_mono (fun e he => .inl (.inl he)) (f3 _ _ he))
  have hconnT : ∀ a b, (a, b) ∈ mst mg ∨ (b, a) ∈ mst mg → ∀ x y, labels x = a → labels y = b → Conn (F ∪ T ∪ P) x y := by
    have one : ∀ a b, (a, b) ∈ mst mg → ∀ x y, labels x = a → labels y = b → Conn (F ∪ T ∪ P) x y := by
      intro a b ht x y hx hy
      obtain ⟨_, hk, h⟩ := hinv.mem a b (m1 _ ht)
      have h1 : (entryAt E (mg (a, b))).1 ∈ F ∪ T ∪ P := .inl (.inr ⟨_, ⟨_, ht, rfl⟩, .inl rfl⟩)
      have h2 := hSs _ h1
      rcases h with ⟨h3, h4⟩ | ⟨h3, h4⟩
      · exact ((hconnC x _ ((hlabels _ _).mp (hx.trans h3.symm))).tail h1).trans
          (hconnC _ y ((hlabels _ _).mp (h4.trans hy.symm)))
      · exact ((hconnC x _ ((hlabels _ _).mp (hx.trans h4.symm))).tail h2).trans
          (hconnC _ y ((hlabels _ _).mp (h3.trans hy.symm)))
    rintro a b (h | h) x y hx hy
    · exact one a b h x y hx hy
    · exact conn_symm hSs (one b a h y x hy hx)
  have hconn : ∀ x y, (x, y) ∈ E.map Prod.fst → Conn (F ∪ T ∪ P) x y := by
    intro x y hxy
    by_cases hxyC : (x, y) ∈ C
    · exact conn_mono (fun e he => .inl (.inl he)) (f3 _ _ hxyC)
    by_cases hxl : labels x = labels y
    · exact hconnC x y ((hlabels _ _).mp hxl)
    -- a link between components
    have hmgne : mg (labels x, labels y) ≠ 0 := by
      obtain ⟨f, hf, hfe⟩ := List.mem_map.mp hxy
      obtain ⟨k, hk, rfl⟩ := entryAt_of_mem hf
      have hkd : k ∈ del := by
        by_contra h
        exact hxyC (by rw [← hfe]; exact (mem_remaining hl.nodup hk).mpr h)
      by_cases hk0 : k = 0
      · obtain ⟨k', hk', hke⟩ := entryAt_of_mem (hsy _ hf)
        have h1 : k' ∈ del := by
          by_contra h
          apply hxyC
          have h2 := hCs _ ((mem_remaining hl.nodup hk').mpr h)
          rw [hke] at h2
          rw [← hfe]
          simpa using h2
        have h2 : k' ≠ 0 := by
          rintro rfl
          rw [hk0] at hke hfe
          have h3 := congrArg (fun e => e.1) hke
          simp only [hfe, Prod.swap_prod_mk] at h3
          exact hxl (by rw [(Prod.mk.inj h3).1])
        have h3 := hinv.cover k' h1 h2
        rw [hke, hfe] at h3
        simp only [Prod.swap_prod_mk] at h3
        have h4 := h3 (fun h => hxl h.symm)
        rw [← hinv.symm] at h4
        exact h4
      · have h3 := hinv.cover k hkd hk0
        rw [hfe] at h3
        exact h3 hxl
    have hT2 := m3 _ _ hmgne
    -- follow the tree of components
    have follow : ∀ a b, Conn {e | e ∈ mst mg ∨ e.swap ∈ mst mg} a b → ∀ x y, labels x = a → labels y = b →
        Conn (F ∪ T ∪ P) x y := by
      intro a b h
      induction h with
      | refl => intro x y hx hy; exact hconnC x y ((hlabels _ _).mp (hx.trans hy.symm))
      | @tail b c hab hbc ih =>
        intro x y hx hy
        obtain ⟨w, hw⟩ : ∃ w, labels w = b := by
          rcases hbc with h | h
          · obtain ⟨_, _, h⟩ := hinv.mem _ _ (m1 _ h)
            rcases h with ⟨h, _⟩ | ⟨_, h⟩
            · exact ⟨_, h⟩
            · exact ⟨_, h⟩
          · obtain ⟨_, _, h⟩ := hinv.mem _ _ (m1 _ h)
            rcases h with ⟨_, h⟩ | ⟨h, _⟩
            · exact ⟨_, h⟩
            · exact ⟨_, h⟩
        exact (ih x w hx hw).trans (hconnT b c hbc w y hw hy)
    exact follow _ _ hT2 x y rfl rfl
  refine ⟨_, _, F ∪ T ∪ P, e2, e3, rfl, ?_, hSs, hconn, fun e he => .inr he, ?_⟩
  · rintro e ((h | h) | h)
    · exact hCl e (f1 e h)
    · exact hTl e h
    · exact h.1
  -- gradients
  intro M _ f hf hφ
  obtain ⟨φ, hφ⟩ := hφ
  obtain ⟨θ, hθ⟩ := f4 M f hf
  let ψ : ℕ → M := fun x => if ∃ y, (x, y) ∈ P then φ x else θ x
  have hψP : ∀ i j, (i, j) ∈ P → f i j = (ψ i)⁻¹ * ψ j := by
    intro i j hij
    have h1 : ψ i = φ i := if_pos ⟨j, hij⟩
    have h2 : ψ j = φ j := if_pos ⟨i, patchLinks_symm hl hij⟩
    rw [h1, h2]; exact hφ i j hij
  have hψF : ∀ i j, (i, j) ∈ F → f i j = (ψ i)⁻¹ * ψ j := by
    intro i j hij
    by_cases hp : (i, j) ∈ P
    · exact hψP i j hp
    · have hc := f1 _ hij
      have h1 : ψ i = θ i := if_neg (by rintro ⟨y, hy⟩; exact (remaining_split hl hy hc hp).1 rfl)
      have h2 : ψ j = θ j := if_neg (by rintro ⟨y, hy⟩; exact (remaining_split hl hy hc hp).2 rfl)
      rw [h1, h2]; exact hθ i j hij
  -- the remaining differences along the tree of components
  let h : ℕ × ℕ → M := fun e => f e.1 e.2 * ψ e.1 * (ψ e.2)⁻¹
  let g : ℕ → ℕ → M := fun a b => if mg (a, b) = 0 then 1 else
    if labels (entryAt E (mg (a, b))).1.1 = a then h (entryAt E (mg (a, b))).1 else (h (entryAt E (mg (a, b))).1)⁻¹
  have hg : ∀ a b, g b a = (g a b)⁻¹ := by
    intro a b
    have hs := hinv.symm (a, b)
    simp only [Prod.swap_prod_mk] at hs
    simp only [g, hs]
    by_cases h0 : mg (a, b) = 0
    · simp [h0]
    · rw [if_neg h0, if_neg h0]
      obtain ⟨hab, _, h1⟩ := hinv.mem a b h0
      rcases h1 with ⟨h1, _⟩ | ⟨h1, _⟩
      · rw [if_neg (by rw [h1]; exact hab), if_pos h1]
      · rw [if_pos h1, if_neg (by rw [h1]; exact fun h => hab h.symm), inv_inv]
  obtain ⟨γ, hγ⟩ := m2 M g hg
  refine ⟨fun x => ψ x * γ (labels x), ?_⟩
  have hin : ∀ i j, labels i = labels j → f i j = (ψ i)⁻¹ * ψ j →
      f i j = (ψ i * γ (labels i))⁻¹ * (ψ j * γ (labels j)) := by
    intro i j h1 h2
    rw [h2, h1, mul_inv]
    rw [show (ψ i)⁻¹ * (γ (labels j))⁻¹ * (ψ j * γ (labels j)) =
      (ψ i)⁻¹ * ψ j * ((γ (labels j))⁻¹ * γ (labels j)) by simp only [mul_assoc, mul_left_comm, mul_comm]]
    simp
  have hTe : ∀ t ∈ mst mg, f (entryAt E (mg t)).1.1 (entryAt E (mg t)).1.2 =
      (ψ (entryAt E (mg t)).1.1 * γ (labels (entryAt E (mg t)).1.1))⁻¹ *
        (ψ (entryAt E (mg t)).1.2 * γ (labels (entryAt E (mg t)).1.2)) := by
    rintro ⟨a, b⟩ ht
    have h0 := m1 _ ht
    obtain ⟨hab, _, h1⟩ := hinv.mem a b h0
    have h2 := hγ a b (.inl ht)
    simp only [g, if_neg h0] at h2
    set u := (entryAt E (mg (a, b))).1.1 with hu
    set v := (entryAt E (mg (a, b))).1.2 with hv
    have h3 : h (entryAt E (mg (a, b))).1 = f u v * ψ u * (ψ v)⁻¹ := rfl
    rw [h3] at h2
    have alg : ∀ x y z w r : M, r * x * y⁻¹ = z⁻¹ * w → r = (x * z)⁻¹ * (y * w) := by
      intro x y z w r h
      have h5 : r = (r * x * y⁻¹) * x⁻¹ * y := by
        rw [show r * x * y⁻¹ * x⁻¹ * y = r * (x * x⁻¹) * (y⁻¹ * y) by simp only [mul_assoc, mul_left_comm, mul_comm]]
        simp
      rw [h5, h, mul_inv]
      simp only [mul_assoc, mul_left_comm, mul_comm]
    apply alg
    rcases h1 with ⟨h1, h4⟩ | ⟨h1, h4⟩
    · rw [if_pos h1] at h2
      rw [h2, h1, h4]
    · rw [if_neg (by rw [h1]; exact fun h => hab h.symm)] at h2
      rw [h1, h4, ← inv_inj, h2, mul_inv, inv_inv, mul_comm]
  rintro i j ((hij | hij) | hij)
  · exact hin i j ((hlabels i j).mpr (.single (f1 _ hij))) (hψF i j hij)
  · obtain ⟨k, ⟨t, ht, rfl⟩, he | he⟩ := hij
    · have := hTe t ht
      rw [← he] at this
      exact this
    · have := hTe t ht
      have he' : (entryAt E (mg t)).1 = (j, i) := by rw [← Prod.swap_swap (entryAt E (mg t)).1, ← he]; rfl
      rw [he'] at this
      rw [hf j i, this]
      simp only [mul_inv, inv_inv]
      simp only [mul_left_comm, mul_comm]
  · exact hin i j ((hlabels i j).mpr (.single (hPC _ hij))) (hψP i j hij)

end

end Kwant.Gauge
