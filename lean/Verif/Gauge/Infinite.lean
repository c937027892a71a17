import Verif.Gauge.Phases

/-!
# C101: Peierls phases of infinite systems

Model of `kwant/physics/gauge.py`: `_check_infinite_syst` (l.655-695), `_loops_in_infinite` (l.295-356),
`_previous_phase_infinite` (l.815-826), `_infinite_wrapper` (l.866-879), `_peierls_infinite` (l.894-904).

Simplifications
* Exact arithmetic; `set.pop`, `np.argsort`, the heap as in `Loops.lean`; `np.argmin` returns an arbitrary position
  of a minimal element.
* An infinite system is given by its graph: `cell` sites of the unit cell, followed by interface sites.  By the
  layout of finalized infinite systems (C46), site number `cell + k` is site `k` translated to domain `-1`.
* A site is represented by its domain and its number in the unit cell; `pos` are positions of the unit cell, `T` is
  the period: the site of domain `d` with number `i` is at `pos i + d • T`.
* `csgraph.connected_components` by its contract.
-/
set_option linter.unusedSectionVars false

namespace Kwant.Gauge
open Kwant.Dijkstra Complex

/-! ## Model -/

/-- A sparse matrix in coordinate format. -/
abbrev Coo := List ((ℕ × ℕ) × WithTop ℝ)

/-- `coo.tocsr()` (without duplicates). -/
def csrOf (l : Coo) : Csr := fun i => (l.filter (fun e => e.1.1 = i)).map fun e => (e.1.2, e.2)

/-- `_distance_matrix(links, pos, shape)` in coordinate format (gauge.py l.209-226). -/
def distCoo (links : List (ℕ × ℕ)) (dist : ℕ → ℕ → ℝ) : Coo := links.map fun e => (e, ((dist e.1 e.2 : ℝ) : WithTop ℝ))

/-- `_shift_diagonally` (gauge.py l.202-206). -/
def shiftCoo (l : Coo) (c : ℕ) : Coo := l.map fun e => ((e.1.1 + c, e.1.2 + c), e.2)

/-- The transpose. -/
def transposeCoo (l : Coo) : Coo := l.map fun e => (e.1.swap, e.2)

/-- `unit_cell_links` (gauge.py l.313-314). -/
def ucLinks (links : List (ℕ × ℕ)) (c : ℕ) : List (ℕ × ℕ) := links.filter fun e => e.1 < c ∧ e.2 < c

/-- `hop_links` (gauge.py l.327). -/
def hopLinks (links : List (ℕ × ℕ)) (c : ℕ) : List (ℕ × ℕ) := links.filter fun e => c ≤ e.2

open Classical in
/-- `_check_infinite_syst` (gauge.py l.655-695): true if there is no exception.  Without links inside the unit cell the
unpacking of line 684 fails. -/
noncomputable def checkInfinite (links : List (ℕ × ℕ)) (c : ℕ) : Bool :=
  if ucLinks links c = [] then false
  else if ∃ i j, i < c ∧ j < c ∧ ¬ Conn {e | e ∈ ucLinks links c} i j then false
  else true

variable (pick : List ℕ → (ℕ → ℝ) → ℕ) (choose : List ℕ → ℕ) (argsort : List ℝ → List ℕ) (argmin : List ℝ → ℕ)

/-- `smallest_edge` (gauge.py l.337-342). -/
def smallestEdge (hops : List (ℕ × ℕ)) (dist : ℕ → ℕ → ℝ) : Coo :=
  hops.zipIdx.map fun e =>
    (e.1, if e.2 = argmin (hops.map fun e => dist e.1 e.2) then ((dist e.1.1 e.1.2 : ℝ) : WithTop ℝ) else ⊤)

/-- `_loops_in_infinite` (gauge.py l.295-356); `none`: an exception.  `np.argmin` of an empty array raises one. -/
noncomputable def loopsInInfinite (links : List (ℕ × ℕ)) (dist : ℕ → ℕ → ℝ) (c : ℕ) : Option (List (List ℕ)) :=
  if checkInfinite links c = false then none else
  let uc := distanceMatrix (ucLinks links c) dist
  match shortestDistanceForest pick choose uc c with
  | none => none
  | some tree =>
    match findLoops pick argsort uc tree c with
    | none => none
    | some loops =>
      let uc1 := distCoo (ucLinks links c) dist
      let uc2 := shiftCoo uc1 c
      let hop := distCoo (hopLinks links c) dist
      let graph := csrOf (uc1 ++ uc2 ++ hop ++ transposeCoo hop)
      if hopLinks links c = [] then none else
      let small := smallestEdge argmin (hopLinks links c) dist
      let sub := csrOf (uc1 ++ uc2 ++ small ++ transposeCoo small)
      match findLoops pick argsort graph sub (2 * c) with
      | none => none
      | some loops2 => some (loops ++ loops2)

/-- The link whose phase is used for a step between sites of the two cells (gauge.py l.820-823). -/
def reduce (c : ℕ) (e : ℕ × ℕ) : ℕ × ℕ := if e.1 ≥ c ∧ e.2 ≥ c then (e.1 % c, e.2 % c) else e

/-- `_previous_phase_infinite` (gauge.py l.815-826).  The assertion holds because all numbers are below `2 * c`. -/
noncomputable def previousPhaseInfinite (c : ℕ) (ph : Phases) (path : List ℕ) : ℂ :=
  (path.zip path.tail).foldl (fun acc e =>
    acc * (ph (reduce c e)).getD 1 / (ph (reduce c e).swap).getD 1) 1

/-- `syst.id_by_site[site]` for an infinite system with `n` sites (`none`: `KeyError`). -/
def idOf (c n : ℕ) (s : ℤ × ℕ) : Option ℕ :=
  if s.1 = 0 ∧ s.2 < c then some s.2
  else if s.1 = -1 ∧ s.2 < c ∧ c + s.2 < n then some (c + s.2)
  else none

/-- `_infinite_wrapper` (gauge.py l.866-879); a site is a pair of domain and number in the cell. -/
noncomputable def infiniteWrapper (c n : ℕ) (ph : Phases) (a b : ℤ × ℕ) : Option ℂ :=
  let t := max a.1 b.1
  match idOf c n (a.1 - t, a.2), idOf c n (b.1 - t, b.2) with
  | some i, some j => some (finiteWrapper ph i j)
  | _, _ => none

section
variable {V : Type} [AddCommGroup V]

/-- `extended_sites(i).pos` (gauge.py l.351-354). -/
def extPos (pos : ℕ → V) (T : V) (c : ℕ) (i : ℕ) : V := if i < c then pos i else pos (i - c) - T

/-- `_peierls_infinite` (gauge.py l.894-904). -/
noncomputable def peierlsInfinite (c n : ℕ) (loops : List (List ℕ)) (pos : ℕ → V) (T : V) (flux : List V → ℝ) :
    ℤ × ℕ → ℤ × ℕ → Option ℂ :=
  infiniteWrapper c n (calculatePhases loops (extPos pos T c) (previousPhaseInfinite c) flux)

end

/-! ## Specification -/

/-- The graph of a finalized infinite system (C46). -/
structure InfLinks (links : List (ℕ × ℕ)) (c n : ℕ) : Prop where
  lt : ∀ e ∈ links, e.1 < n
  le : n ≤ 2 * c
  nodup : links.Nodup
  symm : ∀ e ∈ links, e.swap ∈ links
  irrefl : ∀ e ∈ links, e.1 ≠ e.2
  cell : ∀ e ∈ links, e.1 < c ∨ e.2 < c

/-- `np.argmin`. -/
def ArgMin : Prop := ∀ l : List ℝ, l ≠ [] → argmin l < l.length ∧ ∀ x ∈ l, l.getD (argmin l) 0 ≤ x

/-- The hoppings of the infinite system: within a domain, and between neighboring domains. -/
inductive Hop (links : List (ℕ × ℕ)) (c : ℕ) : ℤ × ℕ → ℤ × ℕ → Prop where
  | cell (d : ℤ) {i j : ℕ} : i < c → j < c → (i, j) ∈ links → Hop links c (d, i) (d, j)
  | down (d : ℤ) {i j : ℕ} : i < c → (i, c + j) ∈ links → Hop links c (d, i) (d - 1, j)
  | up (d : ℤ) {i j : ℕ} : i < c → (i, c + j) ∈ links → Hop links c (d - 1, j) (d, i)

/-- The flux through a closed loop does not change when it is translated by periods. -/
def Periodic {V : Type} [AddCommGroup V] (flux : List V → ℝ) (T : V) : Prop :=
  ∀ (l : List V) (d : ℤ), flux (l.map fun v => v + d • T) = flux l

/-! ## Matrices -/

theorem csr_restrict {l : Coo} {d : ℕ → ℕ → ℝ} {S : Set (ℕ × ℕ)} [DecidablePred (· ∈ S)]
    (h : ∀ e ∈ l, e.2 = if e.1 ∈ S then ((d e.1.1 e.1.2 : ℝ) : WithTop ℝ) else ⊤) :
    csrOf l = restrict (distanceMatrix (l.map Prod.fst) d) S := by
  classical
  funext i
  unfold csrOf restrict distanceMatrix
  rw [List.filter_map, List.map_map, List.map_map]
  apply List.map_congr_left
  intro e he
  obtain ⟨h1, h2⟩ := List.mem_filter.mp he
  simp only [decide_eq_true_eq] at h2
  have := h e h1
  simp only [Function.comp_apply, Prod.mk.injEq, true_and]
  rw [this, ← h2]

theorem csr_dist {l : Coo} {d : ℕ → ℕ → ℝ} (h : ∀ e ∈ l, e.2 = ((d e.1.1 e.1.2 : ℝ) : WithTop ℝ)) :
    csrOf l = distanceMatrix (l.map Prod.fst) d := by
  classical
  rw [csr_restrict (S := {e | e ∈ l.map Prod.fst}) (d := d), restrict_links]
  intro e he
  have : e.1 ∈ {e | e ∈ l.map Prod.fst} := List.mem_map_of_mem he
  rw [h e he, if_pos this]

/-- The links of the two cells. -/
def extLinks (links : List (ℕ × ℕ)) (c : ℕ) : List (ℕ × ℕ) :=
  ucLinks links c ++ (ucLinks links c).map (fun e => (e.1 + c, e.2 + c)) ++ hopLinks links c ++
    (hopLinks links c).map Prod.swap

/-- The lengths of the links of the two cells. -/
def extDist (dist : ℕ → ℕ → ℝ) (c i j : ℕ) : ℝ :=
  if i < c then dist i j else if j < c then dist j i else dist (i - c) (j - c)

variable {links : List (ℕ × ℕ)} {dist : ℕ → ℕ → ℝ} {c n : ℕ}

theorem mem_uc {e : ℕ × ℕ} : e ∈ ucLinks links c ↔ e ∈ links ∧ e.1 < c ∧ e.2 < c := by
  simp [ucLinks]

theorem mem_hop (hl : InfLinks links c n) {e : ℕ × ℕ} : e ∈ hopLinks links c ↔ e ∈ links ∧ e.1 < c ∧ c ≤ e.2 := by
  simp only [hopLinks, List.mem_filter, decide_eq_true_eq]
  constructor
  · rintro ⟨h1, h2⟩
    rcases hl.cell e h1 with h | h
    · exact ⟨h1, h, h2⟩
    · omega
  · rintro ⟨h1, _, h2⟩; exact ⟨h1, h2⟩

theorem mem_ext (hl : InfLinks links c n) {e : ℕ × ℕ} : e ∈ extLinks links c ↔
    (e ∈ links ∧ e.1 < c ∧ e.2 < c) ∨ (∃ f ∈ links, f.1 < c ∧ f.2 < c ∧ e = (f.1 + c, f.2 + c)) ∨
    (e ∈ links ∧ e.1 < c ∧ c ≤ e.2) ∨ (e ∈ links ∧ c ≤ e.1 ∧ e.2 < c) := by
  simp only [extLinks, List.mem_append, List.mem_map, mem_uc, mem_hop hl]
  constructor
  · rintro (((h | ⟨f, ⟨h1, h2, h3⟩, rfl⟩) | h) | ⟨f, ⟨h1, h2, h3⟩, rfl⟩)
    · exact .inl h
    · exact .inr (.inl ⟨f, h1, h2, h3, rfl⟩)
    · exact .inr (.inr (.inl h))
    · exact .inr (.inr (.inr ⟨hl.symm f h1, h3, h2⟩))
  · rintro (h | ⟨f, h1, h2, h3, rfl⟩ | h | ⟨h1, h2, h3⟩)
    · exact .inl (.inl (.inl h))
    · exact .inl (.inl (.inr ⟨f, ⟨h1, h2, h3⟩, rfl⟩))
    · exact .inl (.inr h)
    · exact .inr ⟨e.swap, ⟨hl.symm e h1, h3, h2⟩, by simp⟩

theorem uc_links (hl : InfLinks links c n) : Links (ucLinks links c) c :=
  ⟨fun e he => (mem_uc.mp he).2.1, hl.nodup.filter _,
   fun e he => mem_uc.mpr ⟨hl.symm e (mem_uc.mp he).1, (mem_uc.mp he).2.2, (mem_uc.mp he).2.1⟩,
   fun e he => hl.irrefl e (mem_uc.mp he).1⟩

theorem ext_links (hl : InfLinks links c n) : Links (extLinks links c) (2 * c) := by
  refine ⟨?_, ?_, ?_, ?_⟩
  · intro e he
    rcases (mem_ext hl).mp he with ⟨h1, h2, h3⟩ | ⟨f, h1, h2, h3, rfl⟩ | ⟨h1, h2, h3⟩ | ⟨h1, h2, h3⟩
    · omega
    · simp only; omega
    · omega
    · have := hl.lt e h1; have := hl.le; omega
  · unfold extLinks
    rw [List.nodup_append, List.nodup_append, List.nodup_append]
    refine ⟨⟨⟨hl.nodup.filter _, ?_, ?_⟩, hl.nodup.filter _, ?_⟩, ?_, ?_⟩
    · apply List.Nodup.map _ (hl.nodup.filter _)
      rintro ⟨a, b⟩ ⟨a', b'⟩ h
      simp only [Prod.mk.injEq] at h ⊢
      omega
    · rintro a ha b hb rfl
      obtain ⟨f, hf, rfl⟩ := List.mem_map.mp hb
      have := (mem_uc.mp ha).2
      simp only at this
      omega
    · rintro a ha b hb rfl
      have h2 := (mem_hop hl).mp hb
      rcases List.mem_append.mp ha with ha | ha
      · have := (mem_uc.mp ha).2; omega
      · obtain ⟨f, hf, rfl⟩ := List.mem_map.mp ha
        simp only at h2; omega
    · exact List.Nodup.map Prod.swap_injective (hl.nodup.filter _)
    · rintro a ha b hb rfl
      obtain ⟨f, hf, rfl⟩ := List.mem_map.mp hb
      have h2 := (mem_hop hl).mp hf
      rcases List.mem_append.mp ha with ha | ha
      · rcases List.mem_append.mp ha with ha | ha
        · have := (mem_uc.mp ha).2; simp only [Prod.fst_swap, Prod.snd_swap] at this; omega
        · obtain ⟨f', hf', e⟩ := List.mem_map.mp ha
          have := congrArg Prod.snd e
          simp only [Prod.snd_swap] at this; omega
      · have := (mem_hop hl).mp ha
        simp only [Prod.fst_swap, Prod.snd_swap] at this; omega
  · intro e he
    rw [mem_ext hl] at he ⊢
    rcases he with ⟨h1, h2, h3⟩ | ⟨f, h1, h2, h3, rfl⟩ | ⟨h1, h2, h3⟩ | ⟨h1, h2, h3⟩
    · exact .inl ⟨hl.symm e h1, h3, h2⟩
    · exact .inr (.inl ⟨f.swap, hl.symm f h1, h3, h2, rfl⟩)
    · exact .inr (.inr (.inr ⟨hl.symm e h1, h3, h2⟩))
    · exact .inr (.inr (.inl ⟨hl.symm e h1, h3, h2⟩))
  · intro e he
    rcases (mem_ext hl).mp he with ⟨h1, h2, h3⟩ | ⟨f, h1, h2, h3, rfl⟩ | ⟨h1, h2, h3⟩ | ⟨h1, h2, h3⟩
    · exact hl.irrefl e h1
    · have := hl.irrefl f h1; simp only; omega
    · omega
    · omega

/-- The links of the initial subgraph: both cells and one link between them. -/
def startLinks (links : List (ℕ × ℕ)) (c : ℕ) (s : ℕ × ℕ) : Set (ℕ × ℕ) :=
  {e | e ∈ ucLinks links c ∨ (∃ f ∈ ucLinks links c, e = (f.1 + c, f.2 + c)) ∨ e = s ∨ e = s.swap}

theorem graph_eq (hl : InfLinks links c n) :
    csrOf (distCoo (ucLinks links c) dist ++ shiftCoo (distCoo (ucLinks links c) dist) c ++ distCoo (hopLinks links c) dist ++
      transposeCoo (distCoo (hopLinks links c) dist)) = distanceMatrix (extLinks links c) (extDist dist c) := by
  rw [csr_dist (d := extDist dist c)]
  · congr 1
    simp [distCoo, shiftCoo, transposeCoo, extLinks, Function.comp_def]
  · intro e he
    simp only [List.mem_append, distCoo, shiftCoo, transposeCoo, List.mem_map] at he
    rcases he with ((⟨f, hf, rfl⟩ | ⟨_, ⟨f, hf, rfl⟩, rfl⟩) | ⟨f, hf, rfl⟩) | ⟨_, ⟨f, hf, rfl⟩, rfl⟩
    · simp [extDist, (mem_uc.mp hf).2.1]
    · have h1 : ¬ f.1 + c < c := by omega
      have h2 : ¬ f.2 + c < c := by omega
      simp [extDist]
    · simp [extDist, ((mem_hop hl).mp hf).2.1]
    · have h1 : ¬ f.2 < c := by have := ((mem_hop hl).mp hf).2.2; omega
      simp [extDist, h1, ((mem_hop hl).mp hf).2.1]

theorem sub_eq (hl : InfLinks links c n) (hne : hopLinks links c ≠ []) (hm : ArgMin argmin) :
    ∃ s ∈ hopLinks links c, (∀ e ∈ hopLinks links c, dist s.1 s.2 ≤ dist e.1 e.2) ∧
      csrOf (distCoo (ucLinks links c) dist ++ shiftCoo (distCoo (ucLinks links c) dist) c ++
        smallestEdge argmin (hopLinks links c) dist ++ transposeCoo (smallestEdge argmin (hopLinks links c) dist)) =
      restrict (distanceMatrix (extLinks links c) (extDist dist c)) (startLinks links c s) := by
  classical
  set k := argmin ((hopLinks links c).map fun e => dist e.1 e.2) with hk
  obtain ⟨hk1, hk2⟩ := hm ((hopLinks links c).map fun e => dist e.1 e.2) (by simpa using hne)
  rw [← hk] at hk1 hk2
  have hk1' : k < (hopLinks links c).length := by simpa using hk1
  refine ⟨(hopLinks links c)[k], List.getElem_mem _, ?_, ?_⟩
  · intro e he
    have := hk2 _ (List.mem_map_of_mem he)
    rw [List.getD, List.getElem?_eq_getElem hk1] at this
    simpa using this
  · set s := (hopLinks links c)[k] with hs
    have hsm : s ∈ hopLinks links c := List.getElem_mem _
    have hs' := (mem_hop hl).mp hsm
    rw [csr_restrict (d := extDist dist c) (S := startLinks links c s)]
    · congr 2
      simp only [distCoo, shiftCoo, transposeCoo, extLinks, smallestEdge, List.map_append, List.map_map, Function.comp_def]
      congr 1
      · congr 1
        · congr 1
          · simp
        · have : (hopLinks links c).zipIdx.map (fun x => x.1) = hopLinks links c := List.zipIdx_map_fst 0 _
          simpa using this
      · have : (hopLinks links c).zipIdx.map (fun x => x.1) = hopLinks links c := List.zipIdx_map_fst 0 _
        conv_rhs => rw [← this, List.map_map]
        rfl
    · -- membership of a hop
      have hin : ∀ f m, (f, m) ∈ (hopLinks links c).zipIdx → ((f ∈ startLinks links c s ↔ m = k) ∧
          (f.swap ∈ startLinks links c s ↔ m = k)) := by
        intro f m hfm
        have hf : f ∈ hopLinks links c := List.fst_mem_of_mem_zipIdx hfm
        have hf' := (mem_hop hl).mp hf
        have hmk : f = s ↔ m = k := by
          obtain ⟨hm1, hm2⟩ := List.mem_zipIdx' hfm
          rw [hm2, hs]
          exact List.Nodup.getElem_inj_iff (hl.nodup.filter _)
        constructor
        · rw [← hmk]
          constructor
          · rintro (h | ⟨g, hg, h⟩ | h | h)
            · have := (mem_uc.mp h).2; omega
            · have := congrArg Prod.fst h; simp only at this; omega
            · exact h
            · have := congrArg Prod.fst h; simp only [Prod.fst_swap] at this; omega
          · rintro rfl; exact .inr (.inr (.inl rfl))
        · rw [← hmk]
          constructor
          · rintro (h | ⟨g, hg, h⟩ | h | h)
            · have := (mem_uc.mp h).2; simp only [Prod.fst_swap, Prod.snd_swap] at this; omega
            · have := congrArg Prod.snd h; simp only [Prod.snd_swap] at this; omega
            · have := congrArg Prod.fst h; simp only [Prod.fst_swap] at this; omega
            · exact Prod.swap_injective h
          · rintro rfl; exact .inr (.inr (.inr rfl))
      intro e he
      simp only [List.mem_append, distCoo, shiftCoo, transposeCoo, smallestEdge, List.mem_map] at he
      rcases he with ((⟨f, hf, rfl⟩ | ⟨_, ⟨f, hf, rfl⟩, rfl⟩) | ⟨⟨f, m⟩, hf, rfl⟩) | ⟨_, ⟨⟨f, m⟩, hf, rfl⟩, rfl⟩
      · have : f ∈ startLinks links c s := .inl hf
        simp [extDist, (mem_uc.mp hf).2.1, this]
      · have h1 : ((f.1 + c, f.2 + c) : ℕ × ℕ) ∈ startLinks links c s := .inr (.inl ⟨f, hf, rfl⟩)
        simp [extDist, h1]
      · have hf' := (mem_hop hl).mp (List.fst_mem_of_mem_zipIdx hf)
        have := (hin f m hf).1
        simp only at hf'
        simp only [← hk, this, extDist, hf'.2.1, if_true]
      · have hf' := (mem_hop hl).mp (List.fst_mem_of_mem_zipIdx hf)
        have := (hin f m hf).2
        simp only at hf'
        have h1 : ¬ f.2 < c := by omega
        simp only [← hk, this, extDist, Prod.fst_swap, Prod.snd_swap, h1, hf'.2.1, if_true, if_false]

/-! ## Phases with a reduction of the links -/

/-- `_previous_phase_*` with a reduction `r` of the steps. -/
noncomputable def previousR (r : ℕ × ℕ → ℕ × ℕ) (ph : Phases) (path : List ℕ) : ℂ :=
  (path.zip path.tail).foldl (fun acc e => acc * (ph (r e)).getD 1 / (ph (r e).swap).getD 1) 1

/-- The phase of a step after reduction. -/
noncomputable def wrapR (r : ℕ × ℕ → ℕ × ℕ) (ph : Phases) (i j : ℕ) : ℂ := finiteWrapper ph (r (i, j)).1 (r (i, j)).2

/-- The fold of `_calculate_phases`. -/
noncomputable def phasesR {V : Type} (r : ℕ × ℕ → ℕ × ℕ) (pos : ℕ → V) (flux : List V → ℝ) (loops : List (List ℕ))
    (ph : Phases) : Phases :=
  loops.foldl (fun ph loop => Function.update ph (loop.getLastD 0, loop.headD 0)
    (some (Complex.exp (I * Real.pi * flux (loop.map pos)) / previousR r ph loop))) ph

theorem previousR_eq {S : Set (ℕ × ℕ)} {ph : Phases} (h : PInv S ph) (r : ℕ × ℕ → ℕ × ℕ) (path : List ℕ) :
    previousR r ph path = ((path.zip path.tail).map fun e => wrapR r ph e.1 e.2).prod := by
  unfold previousR
  have key : ∀ (l : List (ℕ × ℕ)) (c : ℂ),
      l.foldl (fun acc e => acc * (ph (r e)).getD 1 / (ph (r e).swap).getD 1) c =
        c * (l.map fun e => wrapR r ph e.1 e.2).prod := by
    intro l
    induction l with
    | nil => simp
    | cons e l ih =>
      intro c
      have := wrapper_step h (r e).1 (r e).2
      rw [List.foldl_cons, ih, List.map_cons, List.prod_cons, mul_div_assoc]
      rw [show wrapR r ph e.1 e.2 = finiteWrapper ph (r e).1 (r e).2 from rfl, ← this, mul_assoc]
      rfl
  rw [key]; simp

theorem norm_prod_wrapR {S : Set (ℕ × ℕ)} {ph : Phases} (h : PInv S ph) (r : ℕ × ℕ → ℕ × ℕ) (l : List (ℕ × ℕ)) :
    ‖(l.map fun e => wrapR r ph e.1 e.2).prod‖ = 1 := by
  induction l with
  | nil => simp
  | cons e l ih => simp [wrapR, norm_wrapper h] at ih ⊢; simp [ih]

theorem phasesR_spec {V : Type} {links : List (ℕ × ℕ)} (hsym : ∀ e ∈ links, e.swap ∈ links) (hirr : ∀ e ∈ links, e.1 ≠ e.2) (pos : ℕ → V) (flux : List V → ℝ)
    (r : ℕ × ℕ → ℕ × ℕ) (hr : ∀ e, r e.swap = (r e).swap) (S0 : Set (ℕ × ℕ))
    (hinj : ∀ e ∈ links, e ∉ S0 → r e = e ∧ ∀ e' ∈ links, r e' = e → e' = e) :
    ∀ (loops : List (List ℕ)) (S : Set (ℕ × ℕ)) (ph : Phases), S0 ⊆ S → (∀ e ∈ S, e ∈ links) → PInv (r '' S) ph →
      (∀ e ∈ S, e.swap ∈ S) → Ordered links S loops →
      PInv (r '' {e | e ∈ links}) (phasesR r pos flux loops ph) ∧
      (∀ a b, (a, b) ∈ S → wrapR r (phasesR r pos flux loops ph) a b = wrapR r ph a b) ∧
      ∀ loop ∈ loops, around (wrapR r (phasesR r pos flux loops ph)) loop =
        Complex.exp (I * Real.pi * flux (loop.map pos)) := by
  intro loops
  induction loops with
  | nil =>
    intro S ph _ hsub h _ _
    refine ⟨⟨?_, h.one, h.unit⟩, fun _ _ _ => rfl, by simp⟩
    intro i j p hp
    obtain ⟨e, he, h2⟩ := h.dom i j p hp
    exact ⟨e, hsub e he, h2⟩
  | cons path loops ih =>
    intro S ph h0 hsub h hs ho
    obtain ⟨frm, to_, h1, h2, h3, h4, h5, h6, h7⟩ := ho
    obtain ⟨l, rfl⟩ : ∃ l, path = to_ :: l := by
      cases path with
      | nil => cases h1
      | cons a l => exact ⟨l, by simp at h1; rw [h1]⟩
    have hlast : (to_ :: l).getLast (by simp) = frm := by
      rw [List.getLast?_eq_some_getLast (by simp)] at h2
      exact Option.some.inj h2
    have hlastD : (to_ :: l).getLastD 0 = frm := by
      rw [List.getLastD_eq_getLast?, h2]; rfl
    have hne : frm ≠ to_ := hirr _ h3
    obtain ⟨hr1, hr2⟩ := hinj _ h3 (fun h => h4 (h0 h))
    have hr1' : r (to_, frm) = (to_, frm) := by
      have := hr (frm, to_)
      rw [hr1] at this
      exact this
    have hsr : ∀ e ∈ r '' S, e.swap ∈ r '' S := by
      rintro _ ⟨e, he, rfl⟩
      exact ⟨e.swap, hs e he, hr e⟩
    have h4r : (frm, to_) ∉ r '' S := by
      rintro ⟨e, he, h⟩
      rw [hr2 e (hsub e he) h] at he
      exact h4 he
    set p := Complex.exp (I * Real.pi * flux ((to_ :: l).map pos)) / previousR r ph (to_ :: l) with hp
    have hpn : ‖p‖ = 1 := by
      rw [hp, norm_div, norm_exp_flux, previousR_eq h, norm_prod_wrapR h, div_one]
    obtain ⟨u1, u2, u3⟩ := pinv_update h hsr h4r hne hpn
    have himg : r '' (S ∪ {(frm, to_), (to_, frm)}) = r '' S ∪ {(frm, to_), (to_, frm)} := by
      rw [Set.image_union, Set.image_pair, hr1, hr1']
    rw [← himg] at u1
    have hs' : ∀ e ∈ S ∪ {(frm, to_), (to_, frm)}, e.swap ∈ S ∪ {(frm, to_), (to_, frm)} := by
      rintro e (h | rfl | rfl)
      · exact .inl (hs e h)
      · exact .inr (.inr rfl)
      · exact .inr (.inl rfl)
    have hsub' : ∀ e ∈ S ∪ {(frm, to_), (to_, frm)}, e ∈ links := by
      rintro e (h | rfl | rfl)
      · exact hsub e h
      · exact h3
      · exact hsym _ h3
    obtain ⟨i1, i2, i3⟩ := ih _ _ (h0.trans Set.subset_union_left) hsub' u1 hs' h7
    have hE : phasesR r pos flux ((to_ :: l) :: loops) ph =
        phasesR r pos flux loops (Function.update ph (frm, to_) (some p)) := by
      unfold phasesR
      rw [List.foldl_cons, hlastD]
      rfl
    rw [hE]
    have hu2 : ∀ a b, (a, b) ∈ S → wrapR r (Function.update ph (frm, to_) (some p)) a b = wrapR r ph a b :=
      fun a b hab => u2 _ _ ⟨(a, b), hab, rfl⟩
    refine ⟨i1, fun a b hab => (i2 a b (.inl hab)).trans (hu2 a b hab), ?_⟩
    intro loop hloop
    rcases List.mem_cons.mp hloop with rfl | hloop
    · unfold around
      rw [circuit_eq, List.map_append, List.prod_append, hlast]
      simp only [List.map_cons, List.map_nil, List.prod_cons, List.prod_nil, mul_one]
      have hu3 : wrapR r (Function.update ph (frm, to_) (some p)) frm to_ = p := by
        unfold wrapR; rw [hr1]; exact u3
      rw [i2 frm to_ (.inr (.inl rfl)), hu3]
      have hsteps : (((to_ :: l).zip l).map fun e =>
          wrapR r (phasesR r pos flux loops (Function.update ph (frm, to_) (some p))) e.1 e.2) =
          ((to_ :: l).zip l).map fun e => wrapR r ph e.1 e.2 := by
        apply List.map_congr_left
        rintro ⟨a, b⟩ he
        have hab : (a, b) ∈ S := chain_zip l to_ h6 _ he
        exact (i2 a b (.inl hab)).trans (hu2 a b hab)
      have hprev := previousR_eq h r (to_ :: l)
      rw [List.tail_cons] at hprev
      rw [hsteps, ← hprev, hp]
      have hpr0 : previousR r ph (to_ :: l) ≠ 0 := by
        intro h0
        have := norm_prod_wrapR h r ((to_ :: l).zip l)
        rw [← hprev, h0] at this
        simp at this
      field_simp
      rfl
    · exact i3 loop hloop

/-! ## A cocycle on the integers -/

theorem exists_sum {M : Type} [CommGroup M] (g : ℤ → M) : ∃ L : ℤ → M, ∀ d, L (d - 1) = g d * L d := by
  let L : ℤ → M
    | Int.ofNat m => ∏ k ∈ Finset.range m, (g (k + 1))⁻¹
    | Int.negSucc m => ∏ k ∈ Finset.range (m + 1), g (-(k : ℤ))
  refine ⟨L, ?_⟩
  intro d
  rcases d with m | m
  · cases m with
    | zero => show L (Int.negSucc 0) = g 0 * L (Int.ofNat 0); simp only [L]; simp
    | succ m =>
      have : (Int.ofNat (m + 1) - 1 : ℤ) = Int.ofNat m := by simp
      rw [this]
      simp only [L]
      rw [Finset.prod_range_succ]
      simp [mul_comm]
  · have : (Int.negSucc m - 1 : ℤ) = Int.negSucc (m + 1) := by rw [Int.negSucc_eq, Int.negSucc_eq]; push_cast; ring
    rw [this]
    simp only [L]
    rw [Finset.prod_range_succ _ (m + 1), mul_comm]
    congr 2

/-! ## Theorems -/

/-- A site of the two cells as a site of the infinite system. -/
def extSite (c i : ℕ) : ℤ × ℕ := if i < c then (0, i) else (-1, i - c)

section
variable {V : Type} [AddCommGroup V]

theorem reduce_swap (c : ℕ) (e : ℕ × ℕ) : reduce c e.swap = (reduce c e).swap := by
  unfold reduce
  by_cases h : e.1 ≥ c ∧ e.2 ≥ c
  · rw [if_pos h, if_pos (by exact ⟨h.2, h.1⟩)]; rfl
  · rw [if_neg h, if_neg (by exact fun h' => h ⟨h'.2, h'.1⟩)]

theorem reduce_lt {c : ℕ} {e : ℕ × ℕ} (h : e.1 < c ∨ e.2 < c) : reduce c e = e := by
  unfold reduce; rw [if_neg]; omega

theorem reduce_shift {c i j : ℕ} (hi : i < c) (hj : j < c) : reduce c (i + c, j + c) = (i, j) := by
  unfold reduce
  rw [if_pos (by exact ⟨by omega, by omega⟩)]
  simp [Nat.mod_eq_of_lt hi, Nat.mod_eq_of_lt hj]

theorem phasesR_eq (c : ℕ) (loops : List (List ℕ)) (pos : ℕ → V) (flux : List V → ℝ) :
    calculatePhases loops pos (previousPhaseInfinite c) flux = phasesR (reduce c) pos flux loops (fun _ => none) := rfl

/-- The core of the proofs: the loops, the phases of the two cells and their products. -/
theorem infinite_core (hl : InfLinks links c n) (hd : ∀ i j, 0 ≤ dist i j) (hpick : MinPick pick) (hch : Choose choose)
    (hA : ArgSort argsort) (hm : ArgMin argmin) (hck : checkInfinite links c = true) (hne : hopLinks links c ≠ []) :
    ∃ (tree : Set (ℕ × ℕ)) (l1 l2 : List (List ℕ)) (s : ℕ × ℕ), s ∈ hopLinks links c ∧
      loopsInInfinite pick choose argsort argmin links dist c = some (l1 ++ l2) ∧
      Forest tree ∧ Ordered (ucLinks links c) tree l1 ∧ Ordered (extLinks links c) (startLinks links c s) l2 ∧
      ∀ (pos : ℕ → V) (flux : List V → ℝ), 
        let ph := calculatePhases (l1 ++ l2) pos (previousPhaseInfinite c) flux
        PInv (reduce c '' {e | e ∈ extLinks links c}) ph ∧
        (∀ i j, (i, j) ∈ tree → wrapR (reduce c) ph i j = 1) ∧ wrapR (reduce c) ph s.1 s.2 = 1 ∧
        ∀ loop ∈ l1 ++ l2, around (wrapR (reduce c) ph) loop = Complex.exp (I * Real.pi * flux (loop.map pos)) := by
  classical
  obtain ⟨tree, e1, t1, t2, t3, t4⟩ := forest_spec pick choose (uc_links hl) hd hpick hch (dist := dist)
  obtain ⟨l1, e2, o1⟩ := findLoops_spec pick argsort (uc_links hl) hd hpick hA t1 t2 t3 (dist := dist)
  obtain ⟨s, hs, hsmin, e3⟩ := sub_eq argmin hl hne hm (dist := dist)
  have hs' := (mem_hop hl).mp hs
  have hd2 : ∀ i j, 0 ≤ extDist dist c i j := by
    intro i j; unfold extDist; split_ifs <;> exact hd _ _
  have hconn : ∀ i j, i < c → j < c → Conn {e | e ∈ ucLinks links c} i j := by
    unfold checkInfinite at hck
    split_ifs at hck with h1 h2
    intro i j hi hj
    by_contra hcon
    exact h2 ⟨i, j, hi, hj, hcon⟩
  set S0 := startLinks links c s with hS0
  have s1 : ∀ e ∈ S0, e ∈ extLinks links c := by
    rintro e (h | ⟨f, h, rfl⟩ | rfl | rfl)
    · exact (mem_ext hl).mpr (.inl (mem_uc.mp h))
    · exact (mem_ext hl).mpr (.inr (.inl ⟨f, (mem_uc.mp h).1, (mem_uc.mp h).2.1, (mem_uc.mp h).2.2, rfl⟩))
    · exact (mem_ext hl).mpr (.inr (.inr (.inl hs')))
    · exact (mem_ext hl).mpr (.inr (.inr (.inr ⟨hl.symm _ hs'.1, hs'.2.2, hs'.2.1⟩)))
  have s2 : ∀ e ∈ S0, e.swap ∈ S0 := by
    rintro e (h | ⟨f, h, rfl⟩ | rfl | rfl)
    · exact .inl ((uc_links hl).symm e h)
    · exact .inr (.inl ⟨f.swap, (uc_links hl).symm f h, rfl⟩)
    · exact .inr (.inr (.inr rfl))
    · exact .inr (.inr (.inl (by simp)))
  have c1 : ∀ i j, i < c → j < c → Conn S0 i j := fun i j hi hj => conn_mono (fun e he => .inl he) (hconn i j hi hj)
  have c2 : ∀ i j, i < c → j < c → Conn S0 (i + c) (j + c) := by
    intro i j hi hj
    have := hconn i j hi hj
    clear hj
    induction this with
    | refl => exact .refl
    | tail _ he ih => exact ih.tail (.inr (.inl ⟨_, he, rfl⟩))
  have hlt2 : s.2 < 2 * c := by
    have := hl.lt _ (hl.symm _ hs'.1); have := hl.le; simp at *; omega
  have c3 : ∀ i j, i < c → j < c → Conn S0 i (j + c) := by
    intro i j hi hj
    have h1 : Conn S0 s.1 s.2 := .single (.inr (.inr (.inl rfl)))
    have h2 := c2 (s.2 - c) j (by omega) hj
    rw [show s.2 - c + c = s.2 by omega] at h2
    exact ((c1 i s.1 hi hs'.2.1).trans h1).trans h2
  have s3 : ∀ x y, (x, y) ∈ extLinks links c → Conn S0 x y := by
    intro x y h
    have hx : x < 2 * c := (ext_links hl).lt _ h
    have hy : y < 2 * c := (ext_links hl).lt _ ((ext_links hl).symm _ h)
    by_cases h1 : x < c
    · by_cases h2 : y < c
      · exact c1 x y h1 h2
      · have := c3 x (y - c) h1 (by omega)
        rwa [show y - c + c = y by omega] at this
    · by_cases h2 : y < c
      · have := conn_symm s2 (c3 y (x - c) h2 (by omega))
        rwa [show x - c + c = x by omega] at this
      · have := c2 (x - c) (y - c) (by omega) (by omega)
        rwa [show x - c + c = x by omega, show y - c + c = y by omega] at this
  obtain ⟨l2, e4, o2⟩ := findLoops_spec pick argsort (ext_links hl) hd2 hpick hA s1 s2 s3 (dist := extDist dist c)
  refine ⟨tree, l1, l2, s, hs, ?_, t4, o1, o2, ?_⟩
  · unfold loopsInInfinite
    rw [if_neg (by simp [hck])]
    simp only [e1, e2]
    rw [if_neg hne, graph_eq hl, e3, e4]
  · intro pos flux
    simp only
    rw [phasesR_eq]
    have hid : ∀ e ∈ ucLinks links c, reduce c e = e := fun e he => reduce_lt (.inl (mem_uc.mp he).2.1)
    obtain ⟨a1, a2, a3⟩ := phasesR_spec (uc_links hl).symm (uc_links hl).irrefl pos flux (reduce c) (reduce_swap c) tree
      (fun e he _ => ⟨hid e he, fun e' he' h => (hid e' he').symm.trans h⟩) l1 tree (fun _ => none) subset_rfl t1
      (pinv_empty _) t2 o1
    set ph1 := phasesR (reduce c) pos flux l1 (fun _ => none) with hph1
    have a1' : PInv (reduce c '' S0) ph1 := by
      refine ⟨?_, a1.one, a1.unit⟩
      intro i j p hp
      obtain ⟨e, he, h⟩ := a1.dom i j p hp
      exact ⟨e, .inl he, h⟩
    have hinj : ∀ e ∈ extLinks links c, e ∉ S0 → reduce c e = e ∧ ∀ e' ∈ extLinks links c, reduce c e' = e → e' = e := by
      intro e he hn
      have hmix : (e.1 < c ∧ c ≤ e.2) ∨ (c ≤ e.1 ∧ e.2 < c) := by
        rcases (mem_ext hl).mp he with h | ⟨f, f1, f2, f3, rfl⟩ | h | h
        · exact absurd (.inl (mem_uc.mpr h)) hn
        · exact absurd (.inr (.inl ⟨f, mem_uc.mpr ⟨f1, f2, f3⟩, rfl⟩)) hn
        · exact .inl h.2
        · exact .inr h.2
      refine ⟨reduce_lt (by omega), ?_⟩
      intro e' he' h
      by_cases hb : e'.1 ≥ c ∧ e'.2 ≥ c
      · unfold reduce at h
        rw [if_pos hb] at h
        have hc : 0 < c := by omega
        have := Nat.mod_lt e'.1 hc
        have := Nat.mod_lt e'.2 hc
        rw [← h] at hmix
        simp only at hmix
        omega
      · unfold reduce at h
        rwa [if_neg hb] at h
    obtain ⟨b1, b2, b3⟩ := phasesR_spec (ext_links hl).symm (ext_links hl).irrefl pos flux (reduce c) (reduce_swap c) S0 hinj l2 S0 ph1
      subset_rfl s1 a1' s2 o2
    have hE : phasesR (reduce c) pos flux (l1 ++ l2) (fun _ => none) = phasesR (reduce c) pos flux l2 ph1 := by
      unfold phasesR; rw [List.foldl_append]; rfl
    rw [hE]
    refine ⟨b1, ?_, ?_, ?_⟩
    · intro i j hij
      rw [b2 i j (.inl (t1 _ hij)), a2 i j hij]
      simp [wrapR, finiteWrapper]
    · rw [b2 s.1 s.2 (.inr (.inr (.inl rfl)))]
      have hrs : reduce c (s.1, s.2) = s := reduce_lt (.inl hs'.2.1)
      have key : ∀ i j, (c ≤ i ∨ c ≤ j) → ph1 (i, j) = none := by
        intro i j hij
        cases hp : ph1 (i, j) with
        | none => rfl
        | some p =>
          obtain ⟨e, he, h⟩ := a1.dom i j p hp
          rw [hid e he] at h
          have := (mem_uc.mp he).2
          rw [h] at this
          simp only at this
          omega
      unfold wrapR
      rw [hrs]
      simp [finiteWrapper, key s.1 s.2 (.inr hs'.2.2), key s.2 s.1 (.inl hs'.2.2)]
    · intro loop hloop
      rcases List.mem_append.mp hloop with h | h
      · rw [← a3 loop h]
        unfold around
        congr 1
        apply List.map_congr_left
        rintro ⟨a, b⟩ he
        refine b2 a b (.inl ?_)
        exact ordered_circuit (uc_links hl).symm l1 tree t1 o1 loop h _ he
      · exact b3 loop h

/-- The phases of the wrapper are the phases of the two cells. -/
theorem infinite_value {ph : Phases} {a b : ℤ × ℕ} (hl : InfLinks links c n) (h : Hop links c a b) :
    ∃ (d : ℤ) (i j : ℕ), (i, j) ∈ extLinks links c ∧ a = ((extSite c i).1 + d, (extSite c i).2) ∧
      b = ((extSite c j).1 + d, (extSite c j).2) ∧ infiniteWrapper c n ph a b = some (wrapR (reduce c) ph i j) := by
  cases h with
  | cell d hi hj h =>
    rename_i i j
    refine ⟨d, i, j, (mem_ext hl).mpr (.inl ⟨h, hi, hj⟩), by simp [extSite, hi], by simp [extSite, hj], ?_⟩
    simp [infiniteWrapper, idOf, hi, hj, wrapR, reduce_lt (e := (i, j)) (c := c) (.inl hi)]
  | down d hi h =>
    rename_i i j
    have h2 := hl.lt _ (hl.symm _ h)
    have h3 := hl.le
    simp only [Prod.fst_swap] at h2
    have hj : j < c := by omega
    refine ⟨d, i, c + j, (mem_ext hl).mpr (.inr (.inr (.inl ⟨h, hi, by simp⟩))), by simp [extSite, hi],
      by simp [extSite]; omega, ?_⟩
    simp [infiniteWrapper, idOf, hi, hj, h2, wrapR, reduce_lt (e := (i, c + j)) (c := c) (.inl hi)]
  | up d hi h =>
    rename_i i j
    have h2 := hl.lt _ (hl.symm _ h)
    have h3 := hl.le
    simp only [Prod.fst_swap] at h2
    have hj : j < c := by omega
    refine ⟨d, c + j, i, (mem_ext hl).mpr (.inr (.inr (.inr ⟨hl.symm _ h, by simp, hi⟩))),
      by simp [extSite]; omega, by simp [extSite, hi], ?_⟩
    simp [infiniteWrapper, idOf, hi, hj, h2, wrapR, reduce_lt (e := (c + j, i)) (c := c) (.inr hi)]

theorem hop_symm {a b : ℤ × ℕ} (hl : InfLinks links c n) (h : Hop links c a b) : Hop links c b a := by
  cases h with
  | cell d hi hj h => exact .cell d hj hi (hl.symm _ h)
  | down d hi h => exact .up d hi h
  | up d hi h => exact .down d hi h

/-- C101, translation invariance of the phases. -/
theorem C101_translation (loops : List (List ℕ)) (pos : ℕ → V) (T : V) (flux : List V → ℝ) (d : ℤ) (a b : ℤ × ℕ) :
    peierlsInfinite c n loops pos T flux (a.1 + d, a.2) (b.1 + d, b.2) = peierlsInfinite c n loops pos T flux a b := by
  unfold peierlsInfinite infiniteWrapper
  have h : max (a.1 + d) (b.1 + d) = max a.1 b.1 + d := by omega
  simp only [h]
  rw [show a.1 + d - (max a.1 b.1 + d) = a.1 - max a.1 b.1 by omega,
    show b.1 + d - (max a.1 b.1 + d) = b.1 - max a.1 b.1 by omega]

/-- C101, gauge equivalence: the phases of an infinite system with a connected unit cell exist for all hoppings, are unit
numbers, are conjugated by reversal, and differ from the Peierls phases of a vector potential only by a gauge transformation
`Φ` of the sites of the whole infinite system, if the flux is periodic. -/
theorem C101_gauge (hl : InfLinks links c n) (hd : ∀ i j, 0 ≤ dist i j) (hpick : MinPick pick) (hch : Choose choose)
    (hA : ArgSort argsort) (hm : ArgMin argmin) (hck : checkInfinite links c = true) (hne : hopLinks links c ≠ [])
    (pos : ℕ → V) (T : V) (flux : List V → ℝ) :
    ∃ loops, loopsInInfinite pick choose argsort argmin links dist c = some loops ∧
      ∃ P : ℤ × ℕ → ℤ × ℕ → ℂ, (∀ a b, Hop links c a b → peierlsInfinite c n loops pos T flux a b = some (P a b)) ∧
        (∀ a b, Hop links c a b → ‖P a b‖ = 1 ∧ P b a = (starRingEnd ℂ) (P a b)) ∧
        ∀ A : V → V → ℝ, HasPotential flux A → Periodic flux T →
          ∃ Φ : ℤ × ℕ → Circle, ∀ a b, Hop links c a b →
            P a b = ((Φ a)⁻¹ : Circle) * Complex.exp (I * Real.pi * A (pos a.2 + a.1 • T) (pos b.2 + b.1 • T)) * (Φ b : ℂ) := by
  classical
  obtain ⟨tree, l1, l2, s, hs, e, t4, o1, o2, hcore⟩ :=
    infinite_core pick choose argsort argmin hl hd hpick hch hA hm hck hne (dist := dist) (V := V)
  have hs' := (mem_hop hl).mp hs
  obtain ⟨k1, k2, k3, k4⟩ := hcore (extPos pos T c) flux
  set ph := calculatePhases (l1 ++ l2) (extPos pos T c) (previousPhaseInfinite c) flux with hph
  refine ⟨l1 ++ l2, e, fun a b => (infiniteWrapper c n ph a b).getD 1, ?_, ?_, ?_⟩
  · intro a b h
    obtain ⟨d, i, j, _, _, _, hv⟩ := infinite_value hl h (ph := ph)
    show infiniteWrapper c n ph a b = some ((infiniteWrapper c n ph a b).getD 1)
    rw [hv]; rfl
  · intro a b h
    obtain ⟨d, i, j, _, _, _, hv⟩ := infinite_value hl h (ph := ph)
    refine ⟨by simp only [hv]; exact norm_wrapper k1 _ _, ?_⟩
    have : infiniteWrapper c n ph b a = (infiniteWrapper c n ph a b).map (starRingEnd ℂ) := by
      unfold infiniteWrapper
      simp only [max_comm b.1 a.1]
      cases idOf c n (a.1 - max a.1 b.1, a.2) with
      | none => cases idOf c n (b.1 - max a.1 b.1, b.2) <;> rfl
      | some i =>
        cases idOf c n (b.1 - max a.1 b.1, b.2) with
        | none => rfl
        | some j => simp [wrapper_swap k1 i j]
    simp only [this, hv]; rfl
  · intro A hA' hper
    set P := wrapR (reduce c) ph with hP
    have hex : ∀ i j, ∃ z : Circle, (z : ℂ) = P i j := fun i j =>
      ⟨(⟨P i j, mem_sphere_zero_iff_norm.mpr (norm_wrapper k1 _ _)⟩ : Circle), rfl⟩
    choose Pc hPc using hex
    have hPs : ∀ i j, Pc j i = (Pc i j)⁻¹ := by
      intro i j
      apply Subtype.ext
      rw [Circle.coe_inv_eq_conj, hPc, hPc, hP]
      unfold wrapR
      have := reduce_swap c (i, j)
      simp only [Prod.swap_prod_mk] at this
      rw [this]
      exact wrapper_swap k1 _ _
    have hPshift : ∀ i j, i < c → j < c → Pc (i + c) (j + c) = Pc i j := by
      intro i j hi hj
      apply Subtype.ext
      rw [hPc, hPc, hP]
      unfold wrapR
      rw [reduce_shift hi hj, reduce_lt (e := (i, j)) (.inl hi)]
    -- the deviation from the phases of the vector potential
    let x : ℤ → ℕ → V := fun d i => extPos pos T c i + d • T
    have hxs : ∀ d i, x d (i + c) = x (d - 1) i ∨ ¬ i < c := by
      intro d i
      by_cases hi : i < c
      · left
        simp only [x, extPos, if_pos hi, if_neg (by omega : ¬ i + c < c), Nat.add_sub_cancel, sub_smul, one_smul]
        abel
      · exact .inr hi
    let f : ℤ → ℕ → ℕ → Circle := fun d i j => Pc i j * (angle (A (x d i) (x d j)))⁻¹
    have hf : ∀ d i j, f d j i = (f d i j)⁻¹ := by
      intro d i j
      have : angle (A (x d j) (x d i)) = (angle (A (x d i) (x d j)))⁻¹ := by
        rw [hA'.1 (x d i) (x d j), angle, angle, mul_neg, Circle.exp_neg]
      simp only [f, hPs i j, this]
      rw [mul_inv]
    have hfs : ∀ d i j, i < c → j < c → f d (i + c) (j + c) = f (d - 1) i j := by
      intro d i j hi hj
      have h1 := (hxs d i).resolve_right (by simpa using hi)
      have h2 := (hxs d j).resolve_right (by simpa using hj)
      simp only [f, hPshift i j hi hj, h1, h2]
    have hprod : ∀ d, ∀ loop ∈ l1 ++ l2, loop ≠ [] → ((circuit loop).map fun e => f d e.1 e.2).prod = 1 := by
      intro d loop hloop hne
      have e1 : ((circuit loop).map fun e => f d e.1 e.2).prod =
          ((circuit loop).map fun e => Pc e.1 e.2).prod *
            (angle (((circuit loop).map fun e => A (x d e.1) (x d e.2)).sum))⁻¹ := by
        generalize circuit loop = c
        induction c with
        | nil => simp [angle]
        | cons e c ih =>
          simp only [List.map_cons, List.prod_cons, List.sum_cons, ih, f]
          rw [angle, angle, angle, mul_add, Circle.exp_add, mul_inv]
          simp only [mul_assoc, mul_left_comm]
      have e2 : ((circuit (loop.map (x d))).map fun e => A e.1 e.2).sum =
          ((circuit loop).map fun e => A (x d e.1) (x d e.2)).sum := by
        have : circuit (loop.map (x d)) = (circuit loop).map (Prod.map (x d) (x d)) := by
          unfold circuit
          rw [← List.map_tail, ← List.map_take, ← List.map_append, List.zip_map]
        rw [this, List.map_map]
        rfl
      have e3 : (((circuit loop).map fun e => Pc e.1 e.2).prod : ℂ) = around P loop := by
        unfold around
        generalize circuit loop = c
        induction c with
        | nil => simp
        | cons e c ih => simp [← ih, hPc]
      have e5 : flux (loop.map (extPos pos T c)) = flux (loop.map (x d)) := by
        rw [← hper (loop.map (extPos pos T c)) d, List.map_map]; rfl
      have e4 : ((circuit loop).map fun e => Pc e.1 e.2).prod = angle (flux (loop.map (x d))) := by
        apply Subtype.ext
        rw [e3, k4 loop hloop, angle_coe, e5]
      rw [e1, e4, hA'.2 _ (by simpa using hne), e2, mul_inv_cancel]
    have hφ : ∀ d, ∃ φ : ℕ → Circle, ∀ i j, (i, j) ∈ ucLinks links c → f d i j = (φ i)⁻¹ * φ j := by
      intro d
      obtain ⟨φ, h⟩ := t4 Circle (f d) (hf d)
      exact ⟨φ, extend_gradient (f d) (hf d) φ l1 tree o1
        (fun loop hloop => hprod d loop (by simp [hloop]) (ordered_ne l1 tree o1 loop hloop)) h⟩
    choose φ hφ using hφ
    have hs2 : s.2 - c < c := by
      have := hl.lt _ (hl.symm _ hs'.1); have := hl.le; simp only [Prod.fst_swap] at *; omega
    let K : ℤ → Circle := fun d => φ d s.1 * f d s.1 s.2 * (φ (d - 1) (s.2 - c))⁻¹
    have hψ : ∀ d i j, (i, j) ∈ extLinks links c → f d i j =
        (if i < c then φ d i else φ (d - 1) (i - c) * K d)⁻¹ * (if j < c then φ d j else φ (d - 1) (j - c) * K d) := by
      intro d
      refine extend_gradient (f d) (hf d) (fun i => if i < c then φ d i else φ (d - 1) (i - c) * K d) l2 _ o2
        (fun loop hloop => hprod d loop (by simp [hloop]) (ordered_ne l2 _ o2 loop hloop)) ?_
      have hss : f d s.1 s.2 = (φ d s.1)⁻¹ * (φ (d - 1) (s.2 - c) * K d) := by
        simp only [K]
        rw [mul_comm (φ (d - 1) (s.2 - c)), inv_mul_cancel_right, inv_mul_cancel_left]
      rintro i j (h | ⟨g, h, e⟩ | h | h)
      · have h1 := (mem_uc.mp h).2
        rw [if_pos h1.1, if_pos h1.2]
        exact hφ d i j h
      · have h1 := (mem_uc.mp h).2
        obtain ⟨rfl, rfl⟩ := Prod.mk.inj e
        rw [if_neg (by omega), if_neg (by omega), hfs d _ _ h1.1 h1.2, Nat.add_sub_cancel, Nat.add_sub_cancel,
          hφ (d - 1) _ _ h, mul_inv]
        rw [mul_mul_mul_comm, inv_mul_cancel, mul_one]
      · obtain ⟨rfl, rfl⟩ : i = s.1 ∧ j = s.2 := by rw [← h]; exact ⟨rfl, rfl⟩
        rw [if_pos hs'.2.1, if_neg (by omega)]
        exact hss
      · obtain ⟨rfl, rfl⟩ : i = s.2 ∧ j = s.1 := by
          exact ⟨congrArg Prod.fst h, congrArg Prod.snd h⟩
        rw [if_neg (by omega), if_pos hs'.2.1, hf d s.1 s.2, hss, mul_inv, inv_inv, mul_comm]
    obtain ⟨L, hL⟩ := exists_sum K
    refine ⟨fun a => φ a.1 a.2 * L a.1, ?_⟩
    intro a b h
    obtain ⟨d, i, j, hij, ha, hb, hv⟩ := infinite_value hl h (ph := ph)
    have hΦ : ∀ i, φ ((extSite c i).1 + d) (extSite c i).2 * L ((extSite c i).1 + d) =
        (if i < c then φ d i else φ (d - 1) (i - c) * K d) * L d := by
      intro i
      by_cases hi : i < c
      · simp [extSite, hi]
      · simp only [extSite, hi, if_false]
        rw [show (-1 + d : ℤ) = d - 1 by ring, hL d, ← mul_assoc]
    have hx : ∀ i, pos (extSite c i).2 + ((extSite c i).1 + d) • T = x d i := by
      intro i
      simp only [extSite, x, extPos]
      by_cases hi : i < c
      · simp [hi]
      · simp only [hi, if_false]
        rw [add_smul]
        simp only [neg_smul, one_smul]
        abel
    show (infiniteWrapper c n ph a b).getD 1 = _
    rw [hv, Option.getD_some, ha, hb]
    simp only [hΦ, hx]
    have h1 := hψ d i j hij
    have h2 : Pc i j = f d i j * angle (A (x d i) (x d j)) := by simp [f]
    rw [← angle_coe, ← hP, ← hPc, h2, h1, ← Circle.coe_mul, ← Circle.coe_mul]
    congr 1
    rw [mul_inv]
    generalize (if i < c then φ d i else φ (d - 1) (i - c) * K d) = p
    generalize (if j < c then φ d j else φ (d - 1) (j - c) * K d) = q
    generalize angle _ = r
    rw [show p⁻¹ * (L d)⁻¹ * r * (q * L d) = p⁻¹ * q * r * ((L d)⁻¹ * L d) by
      simp only [mul_assoc, mul_left_comm, mul_comm]]
    rw [inv_mul_cancel, mul_one]

/-- C101: if the field has a vector potential and is periodic, the product of the phases around *every* closed walk in the
infinite system is `exp(i π flux)`, with the flux through that walk. -/
theorem C101_closed (hl : InfLinks links c n) (hd : ∀ i j, 0 ≤ dist i j) (hpick : MinPick pick) (hch : Choose choose)
    (hA : ArgSort argsort) (hm : ArgMin argmin) (hck : checkInfinite links c = true) (hne : hopLinks links c ≠ [])
    (pos : ℕ → V) (T : V) (flux : List V → ℝ) (A : V → V → ℝ) (hA' : HasPotential flux A) (hper : Periodic flux T) :
    ∃ loops, loopsInInfinite pick choose argsort argmin links dist c = some loops ∧
      ∃ P : ℤ × ℕ → ℤ × ℕ → ℂ, (∀ a b, Hop links c a b → peierlsInfinite c n loops pos T flux a b = some (P a b)) ∧
        ∀ walk : List (ℤ × ℕ), walk ≠ [] → (∀ e ∈ circuit walk, Hop links c e.1 e.2) →
          ((circuit walk).map fun e => P e.1 e.2).prod =
            Complex.exp (I * Real.pi * flux (walk.map fun s => pos s.2 + s.1 • T)) := by
  obtain ⟨loops, h1, P, h2, _, h3⟩ :=
    C101_gauge pick choose argsort argmin hl hd hpick hch hA hm hck hne pos T flux (dist := dist)
  obtain ⟨Φ, h4⟩ := h3 A hA' hper
  refine ⟨loops, h1, P, h2, ?_⟩
  intro walk hne hw
  set x : ℤ × ℕ → V := fun s => pos s.2 + s.1 • T with hx
  have e2 : ((circuit (walk.map x)).map fun e => A e.1 e.2).sum = ((circuit walk).map fun e => A (x e.1) (x e.2)).sum := by
    have : circuit (walk.map x) = (circuit walk).map (Prod.map x x) := by
      unfold circuit
      rw [← List.map_tail, ← List.map_take, ← List.map_append, List.zip_map]
    rw [this, List.map_map]
    rfl
  rw [hA'.2 _ (by simpa using hne), e2, ← angle_coe]
  have e3 : ((circuit walk).map fun e => P e.1 e.2).prod =
      ((((circuit walk).map fun e => (Φ e.1)⁻¹ * Φ e.2).prod *
        angle (((circuit walk).map fun e => A (x e.1) (x e.2)).sum) : Circle) : ℂ) := by
    generalize circuit walk = c at hw
    induction c with
    | nil => simp [angle]
    | cons e c ih =>
      rw [List.map_cons, List.prod_cons, ih (fun e he => hw e (by simp [he])), h4 e.1 e.2 (hw e (by simp)),
        List.map_cons, List.prod_cons, List.map_cons, List.sum_cons, ← angle_coe]
      rw [show angle (A (x e.1) (x e.2) + (c.map fun e => A (x e.1) (x e.2)).sum) =
        angle (A (x e.1) (x e.2)) * angle (c.map fun e => A (x e.1) (x e.2)).sum by
          rw [angle, mul_add, Circle.exp_add]; rfl]
      simp only [Circle.coe_mul, hx]
      ring
  rw [e3, circuit_telescope, one_mul]

end

theorem const_periodic {V : Type} [AddCommGroup V] [Module ℝ V] (B : V →ₗ[ℝ] V →ₗ[ℝ] ℝ) (T : V) :
    Periodic (surfaceIntegralConst B) T := by
  intro l d
  cases l with
  | nil => rfl
  | cons o l =>
    simp only [List.map_cons, surfaceIntegralConst]
    rw [← List.map_tail, List.zip_map, List.map_map]
    congr 1
    apply List.map_congr_left
    intro e _
    simp only [Function.comp_apply, Prod.map_fst, Prod.map_snd, add_sub_add_right_eq_sub]

/-- C101 for a constant field. -/
theorem C101_constant {V : Type} [AddCommGroup V] [Module ℝ V] (hl : InfLinks links c n) (hd : ∀ i j, 0 ≤ dist i j)
    (hpick : MinPick pick) (hch : Choose choose) (hA : ArgSort argsort) (hm : ArgMin argmin)
    (hck : checkInfinite links c = true) (hne : hopLinks links c ≠ []) (pos : ℕ → V) (T : V) (B : V →ₗ[ℝ] V →ₗ[ℝ] ℝ)
    (hB : ∀ v, B v v = 0) :
    ∃ loops, loopsInInfinite pick choose argsort argmin links dist c = some loops ∧
      ∃ P : ℤ × ℕ → ℤ × ℕ → ℂ,
        (∀ a b, Hop links c a b → peierlsInfinite c n loops pos T (surfaceIntegralConst B) a b = some (P a b)) ∧
        ∀ walk : List (ℤ × ℕ), walk ≠ [] → (∀ e ∈ circuit walk, Hop links c e.1 e.2) →
          ((circuit walk).map fun e => P e.1 e.2).prod =
            Complex.exp (I * Real.pi * surfaceIntegralConst B (walk.map fun s => pos s.2 + s.1 • T)) :=
  C101_closed pick choose argsort argmin hl hd hpick hch hA hm hck hne pos T _ _ (const_potential B hB) (const_periodic B T)

/-- C101, the exceptions: loops are found exactly if the unit cell has hoppings inside, is connected, and there are hoppings
to the next cell. -/
theorem C101_exception (hl : InfLinks links c n) (hd : ∀ i j, 0 ≤ dist i j) (hpick : MinPick pick) (hch : Choose choose)
    (hA : ArgSort argsort) (hm : ArgMin argmin) :
    loopsInInfinite pick choose argsort argmin links dist c ≠ none ↔
      (∃ e ∈ links, e.1 < c ∧ e.2 < c) ∧ (∃ e ∈ links, c ≤ e.2) ∧
      ∀ i j, i < c → j < c → Relation.ReflTransGen (fun a b => (a, b) ∈ links ∧ a < c ∧ b < c) i j := by
  have hconn : (fun a b => (a, b) ∈ ({e | e ∈ ucLinks links c} : Set (ℕ × ℕ))) =
      fun a b => (a, b) ∈ links ∧ a < c ∧ b < c := by
    funext a b; exact propext mem_uc
  have hck : checkInfinite links c = true ↔ (∃ e ∈ links, e.1 < c ∧ e.2 < c) ∧
      ∀ i j, i < c → j < c → Relation.ReflTransGen (fun a b => (a, b) ∈ links ∧ a < c ∧ b < c) i j := by
    unfold checkInfinite Conn
    rw [hconn]
    have h1 : ucLinks links c = [] ↔ ¬ ∃ e ∈ links, e.1 < c ∧ e.2 < c := by
      simp [ucLinks, List.filter_eq_nil_iff]
    split_ifs with h2 h3
    · simp only [Bool.false_eq_true, false_iff]; exact fun h => h1.mp h2 h.1
    · simp only [Bool.false_eq_true, false_iff]
      rintro ⟨_, h⟩
      obtain ⟨i, j, hi, hj, hn⟩ := h3
      exact hn (h i j hi hj)
    · simp only [true_iff]
      refine ⟨by_contra fun h => h2 (h1.mpr h), ?_⟩
      intro i j hi hj
      by_contra hn
      exact h3 ⟨i, j, hi, hj, hn⟩
  have hhop : hopLinks links c ≠ [] ↔ ∃ e ∈ links, c ≤ e.2 := by
    simp [hopLinks, List.filter_eq_nil_iff]
  constructor
  · intro h
    have h1 : checkInfinite links c = true := by
      by_contra hn
      apply h
      unfold loopsInInfinite
      rw [if_pos (by simpa using hn)]
    have h2 : hopLinks links c ≠ [] := by
      intro hn
      apply h
      unfold loopsInInfinite
      split_ifs
      · rfl
      · simp only
        split
        · rfl
        · split
          · rfl
          · first | rfl | rw [if_pos hn]
    exact ⟨(hck.mp h1).1, hhop.mp h2, (hck.mp h1).2⟩
  · rintro ⟨h1, h2, h3⟩
    obtain ⟨tree, l1, l2, s, hs, e, _⟩ := infinite_core pick choose argsort argmin hl hd hpick hch hA hm
      (hck.mpr ⟨h1, h3⟩) (hhop.mpr h2) (dist := dist) (V := ℝ)
    rw [e]; simp

end Kwant.Gauge
