import Verif.Gauge.Dijkstra
import Mathlib.Data.List.Chain
import Mathlib.Logic.Relation
import Mathlib.Data.List.Perm.Basic
import Mathlib.Tactic.Group

/-!
# C62, first part: the loop finder

Model of `kwant/physics/gauge.py`: `_distance_matrix` (l.209-226), `_assign_csr` (l.167-189),
`_shortest_distance_forest` (l.266-292), `_find_loops` (l.92-150), `_order_links` (l.152-162),
`_loops_in_finite` (l.249-263).

Simplifications
* Exact arithmetic (lengths are reals).
* Sparse matrices in CSR format are `Csr` (see `Dijkstra.lean`).
* `set.pop()` takes an arbitrary element (`choose`), `np.argsort` returns an arbitrary sorting permutation
  (`argsort`), the heap returns an arbitrary minimal node (`pick`).
* An exception is `none`.
-/
set_option linter.unusedSectionVars false

namespace Kwant.Gauge
open Kwant.Dijkstra

/-! ## Model -/

/-- `_distance_matrix(links, pos, shape).tocsr()` (gauge.py l.209-226): `dist i j` is the norm of
`pos(i) - pos(j)`. -/
def distanceMatrix (links : List (ℕ × ℕ)) (dist : ℕ → ℕ → ℝ) : Csr :=
  fun i => (links.filter (fun e => e.1 = i)).map fun e => (e.2, ((dist e.1 e.2 : ℝ) : WithTop ℝ))

/-- `_assign_csr(a, b, (row, col))` (gauge.py l.167-189) for a matrix `b`. -/
def assignCsr (a b : Csr) (row col : ℕ) : Option Csr :=
  match (a row).findIdx? (fun e => e.1 = col) with
  | none => none
  | some j =>
    match (b row)[j]? with
    | none => none
    | some v => some (Function.update a row ((a row).modify j fun e => (e.1, v.2)))

/-- Body of the loop over the predecessors (gauge.py l.285-291). -/
def forestVisit (G : Csr) (pred : ℕ → Option ℕ) (st : Option (List ℕ × Csr)) (i : ℕ) : Option (List ℕ × Csr) :=
  match st with
  | none => none
  | some (unvisited, tree) =>
    match pred i with
    | none => some (unvisited, tree)
    | some p =>
      if i ∈ unvisited then
        match assignCsr tree G i p with
        | none => none
        | some tree =>
          match assignCsr tree G p i with
          | none => none
          | some tree => some (unvisited.erase i, tree)
      else none

variable (pick : List ℕ → (ℕ → ℝ) → ℕ) (choose : List ℕ → ℕ) (argsort : List ℝ → List ℕ)

/-- The `while` loop of `_shortest_distance_forest` (gauge.py l.279-291). -/
noncomputable def forestLoop (G : Csr) (n : ℕ) : ℕ → List ℕ → Csr → Option Csr
  | 0, _, _ => none
  | fuel + 1, unvisited, tree =>
    match unvisited with
    | [] => some tree
    | _ =>
      let root := choose unvisited
      match dijkstraPred G pick n root (n + 1) with
      | none => none
      | some pred =>
        match (List.range n).foldl (forestVisit G pred) (some (unvisited.erase root, tree)) with
        | none => none
        | some (unvisited, tree) => forestLoop G n fuel unvisited tree

/-- `tree = graph.copy(); tree.data[:] = np.inf` (gauge.py l.269-271). -/
def allInf (G : Csr) : Csr := fun i => (G i).map fun e => (e.1, ⊤)

/-- `_shortest_distance_forest` (gauge.py l.266-292). -/
noncomputable def shortestDistanceForest (G : Csr) (n : ℕ) : Option Csr :=
  forestLoop pick choose G n (n + 1) (List.range n) (allInf G)

open Classical in
/-- `scipy.sparse.triu(graph - subgraph).tocoo()` as a list of pairs (row, column) (gauge.py l.120-121); both
matrices have the same sparsity structure, and entries that vanish are dropped. -/
noncomputable def linksToFind (G sub : Csr) (n : ℕ) : List (ℕ × ℕ) :=
  (List.range n).flatMap fun i =>
    (((G i).zip (sub i)).filter fun e => e.1.2 ≠ e.2.2 ∧ i ≤ e.1.1).map fun e => (i, e.1.1)

/-- `_order_links` (gauge.py l.152-162). -/
noncomputable def orderLinks (sub : Csr) (n : ℕ) (l : List (ℕ × ℕ)) : List (ℕ × ℕ) × ℝ :=
  match l with
  | [] => ([], 0)
  | _ =>
    let lengths := (dijkstraPaths sub pick n l).2
    let idxs := argsort lengths
    (idxs.map fun i => l.getD i (0, 0), lengths.getD (idxs.headD 0) 0)

/-- The `while` loop of `_find_loops` (gauge.py l.128-148).  `dijkstra_directed` must return one path,
otherwise the unpacking fails. -/
noncomputable def findLoopsLoop (G : Csr) (n : ℕ) : ℕ → Csr → List (ℕ × ℕ) → ℝ → List (List ℕ) → Option (List (List ℕ))
  | 0, _, _, _, _ => none
  | fuel + 1, sub, l, minLength, loops =>
    match l with
    | [] => some loops
    | (frm, to_) :: rest =>
      match dijkstraOne sub pick n frm to_ with
      | none => none
      | some (path, pathLength) =>
        if pathLength > minLength * (11 / 10) then
          let o := orderLinks pick argsort sub n l
          findLoopsLoop G n fuel sub o.1 o.2 loops
        else
          match assignCsr sub G frm to_ with
          | none => none
          | some sub =>
            match assignCsr sub G to_ frm with
            | none => none
            | some sub => findLoopsLoop G n fuel sub rest minLength (loops ++ [path])

/-- `_find_loops` (gauge.py l.92-150). -/
noncomputable def findLoops (G sub : Csr) (n : ℕ) : Option (List (List ℕ)) :=
  let o := orderLinks pick argsort sub n (linksToFind G sub n)
  findLoopsLoop pick argsort G n (2 * (linksToFind G sub n).length + 1) sub o.1 o.2 []

/-- `_loops_in_finite` (gauge.py l.249-263) for a system of `n` sites whose graph has the given links. -/
noncomputable def loopsInFinite (links : List (ℕ × ℕ)) (dist : ℕ → ℕ → ℝ) (n : ℕ) : Option (List (List ℕ)) :=
  let G := distanceMatrix links dist
  match shortestDistanceForest pick choose G n with
  | none => none
  | some tree => findLoops pick argsort G tree n

/-! ## Specification -/

/-- The graph of a finalized builder: sites in range, no repeated link, both directions, no loops (C40). -/
structure Links (links : List (ℕ × ℕ)) (n : ℕ) : Prop where
  lt : ∀ e ∈ links, e.1 < n
  nodup : links.Nodup
  symm : ∀ e ∈ links, e.swap ∈ links
  irrefl : ∀ e ∈ links, e.1 ≠ e.2

/-- `set.pop`. -/
def Choose : Prop := ∀ l, l ≠ [] → choose l ∈ l

/-- `np.argsort`. -/
def ArgSort : Prop := ∀ l : List ℝ, (argsort l).Perm (List.range l.length) ∧
  (argsort l).Pairwise fun i j => l.getD i 0 ≤ l.getD j 0

/-- A set of links without closed loops: every assignment of group elements to the links is a gradient. -/
def Forest (S : Set (ℕ × ℕ)) : Prop :=
  ∀ (M : Type) [CommGroup M] (f : ℕ → ℕ → M), (∀ i j, f j i = (f i j)⁻¹) → ∃ φ : ℕ → M, ∀ i j, (i, j) ∈ S → f i j = (φ i)⁻¹ * φ j

/-- The order of the loops: the steps of each path are links known so far, its closing link (from the last site to the
first) is a new link of the system, which is known from then on; finally all links are known. -/
def Ordered (links : List (ℕ × ℕ)) : Set (ℕ × ℕ) → List (List ℕ) → Prop
  | S, [] => ∀ l ∈ links, l ∈ S
  | S, path :: loops => ∃ frm to_, path.head? = some to_ ∧ path.getLast? = some frm ∧
      (frm, to_) ∈ links ∧ (frm, to_) ∉ S ∧ (to_, frm) ∉ S ∧
      path.IsChain (fun a b => (a, b) ∈ S) ∧
      Ordered links (S ∪ {(frm, to_), (to_, frm)}) loops

/-! ## Restricted matrices -/

open Classical in
/-- The matrix of the links in `S`; the others are infinite. -/
noncomputable def restrict (G : Csr) (S : Set (ℕ × ℕ)) : Csr :=
  fun i => (G i).map fun e => (e.1, if (i, e.1) ∈ S then e.2 else ⊤)

theorem restrict_empty (G : Csr) : restrict G ∅ = allInf G := by
  funext i; simp [restrict, allInf]

theorem restrict_fst (G : Csr) (S : Set (ℕ × ℕ)) (i : ℕ) : (restrict G S i).map Prod.fst = (G i).map Prod.fst := by
  simp [restrict, Function.comp_def]

theorem mem_distanceMatrix {links : List (ℕ × ℕ)} {dist : ℕ → ℕ → ℝ} {i j : ℕ} {w : WithTop ℝ} :
    (j, w) ∈ distanceMatrix links dist i ↔ (i, j) ∈ links ∧ w = ((dist i j : ℝ) : WithTop ℝ) := by
  simp only [distanceMatrix, List.mem_map, List.mem_filter, decide_eq_true_eq, Prod.mk.injEq]
  constructor
  · rintro ⟨⟨a, b⟩, ⟨h1, rfl⟩, rfl, rfl⟩; exact ⟨h1, rfl⟩
  · rintro ⟨h1, rfl⟩; exact ⟨(i, j), ⟨h1, rfl⟩, rfl, rfl⟩

theorem nodup_distanceMatrix {links : List (ℕ × ℕ)} {dist : ℕ → ℕ → ℝ} (h : links.Nodup) (i : ℕ) :
    ((distanceMatrix links dist i).map Prod.fst).Nodup := by
  unfold distanceMatrix
  rw [List.map_map]
  refine List.Nodup.map_on ?_ (h.filter _)
  rintro ⟨a, b⟩ ha ⟨c, d⟩ hc e
  simp only [List.mem_filter, decide_eq_true_eq] at ha hc
  simp only [Function.comp_apply] at e
  rw [ha.2, hc.2, e]

/-- `_assign_csr` from a restricted matrix. -/
theorem assign_restrict_from {G : Csr} {S S0 : Set (ℕ × ℕ)} {i j : ℕ} (hn : ((G i).map Prod.fst).Nodup) {w : WithTop ℝ}
    (h : (j, w) ∈ G i) (h0 : (i, j) ∈ S0) :
    assignCsr (restrict G S) (restrict G S0) i j = some (restrict G (S ∪ {(i, j)})) := by
  classical
  obtain ⟨k, hk, hkw⟩ := List.mem_iff_getElem.mp h
  have hlen : (restrict G S i).length = (G i).length := by simp [restrict]
  have hf : (restrict G S i).findIdx? (fun e => e.1 = j) = some k := by
    rw [List.findIdx?_eq_some_iff_getElem]
    refine ⟨by rw [hlen]; exact hk, ?_, ?_⟩
    · simp [restrict, hkw]
    · intro m hm
      simp only [restrict, List.getElem_map, decide_eq_true_eq]
      intro he
      have h1 : ((G i).map Prod.fst)[m]'(by simp; omega) = ((G i).map Prod.fst)[k]'(by simp; omega) := by
        simp [he, hkw]
      have := (List.Nodup.getElem_inj_iff hn).mp h1
      omega
  have hv : (restrict G S0 i)[k]? = some (j, w) := by
    have h2 : (G i)[k]? = some (j, w) := by rw [List.getElem?_eq_getElem hk, hkw]
    simp only [restrict, List.getElem?_map, h2, Option.map_some, h0, if_true]
  simp only [assignCsr, hf, hv, Option.some.injEq]
  funext r
  by_cases hr : r = i
  · subst hr
    rw [Function.update_self]
    apply List.ext_getElem
    · simp [restrict]
    · intro m h1 h2
      have hm : m < (G r).length := by simpa [restrict] using h2
      rw [List.getElem_modify]
      simp only [restrict, List.getElem_map]
      by_cases hmk : k = m
      · subst hmk
        simp [hkw]
      · have : (G r)[m].1 ≠ j := by
          intro he
          have h1 : ((G r).map Prod.fst)[m]'(by simp; omega) = ((G r).map Prod.fst)[k]'(by simp; omega) := by
            simp [he, hkw]
          exact hmk ((List.Nodup.getElem_inj_iff hn).mp h1).symm
        simp [hmk, this]
  · rw [Function.update_of_ne hr]
    simp [restrict, hr]

theorem restrict_univ (G : Csr) : restrict G Set.univ = G := by
  funext i; simp [restrict]

/-- `_assign_csr` on a restricted matrix makes one more link known. -/
theorem assign_restrict {G : Csr} {S : Set (ℕ × ℕ)} {i j : ℕ} (hn : ((G i).map Prod.fst).Nodup) {w : WithTop ℝ}
    (h : (j, w) ∈ G i) : assignCsr (restrict G S) G i j = some (restrict G (S ∪ {(i, j)})) := by
  have := assign_restrict_from (S := S) (S0 := Set.univ) hn h (Set.mem_univ _)
  rwa [restrict_univ] at this

/-! ## Walks -/

section
variable {links : List (ℕ × ℕ)} {dist : ℕ → ℕ → ℝ} {n : ℕ} {S : Set (ℕ × ℕ)}

theorem restrict_links (links : List (ℕ × ℕ)) (dist : ℕ → ℕ → ℝ) :
    restrict (distanceMatrix links dist) {e | e ∈ links} = distanceMatrix links dist := by
  classical
  funext i
  unfold restrict
  conv_rhs => rw [← List.map_id (distanceMatrix links dist i)]
  apply List.map_congr_left
  rintro ⟨j, w⟩ h
  have := (mem_distanceMatrix.mp h).1
  simp [this]

theorem mem_restrict {i j : ℕ} {w : ℝ} :
    (j, (w : WithTop ℝ)) ∈ restrict (distanceMatrix links dist) S i ↔ (i, j) ∈ S ∧ (i, j) ∈ links ∧ w = dist i j := by
  classical
  simp only [restrict, List.mem_map, Prod.mk.injEq]
  constructor
  · rintro ⟨⟨j', w'⟩, h1, rfl, h2⟩
    obtain ⟨h3, rfl⟩ := mem_distanceMatrix.mp h1
    by_cases hS : (i, j') ∈ S
    · simp only [hS, if_true] at h2
      exact ⟨hS, h3, (WithTop.coe_injective h2).symm⟩
    · simp only [hS, if_false] at h2
      cases h2
  · rintro ⟨h1, h2, rfl⟩
    exact ⟨(j, _), mem_distanceMatrix.mpr ⟨h2, rfl⟩, rfl, by simp [h1]⟩

theorem ok_restrict (hl : Links links n) (hd : ∀ i j, 0 ≤ dist i j) : Ok (restrict (distanceMatrix links dist) S) n := by
  classical
  have key : ∀ u, ∀ e ∈ restrict (distanceMatrix links dist) S u, (u, e.1) ∈ links ∧ (0 : WithTop ℝ) ≤ e.2 := by
    intro u e he
    simp only [restrict, List.mem_map] at he
    obtain ⟨⟨j, w⟩, h1, rfl⟩ := he
    obtain ⟨h2, rfl⟩ := mem_distanceMatrix.mp h1
    refine ⟨h2, ?_⟩
    simp only
    split_ifs
    · exact WithTop.coe_le_coe.mpr (hd _ _)
    · exact le_top
  exact ⟨fun u e he => hl.lt _ (hl.symm _ (key u e he).1), fun u e he => (key u e he).2⟩

/-- Steps along links of `S`. -/
abbrev Conn (S : Set (ℕ × ℕ)) := Relation.ReflTransGen fun a b => (a, b) ∈ S

theorem walk_conn {s x : ℕ} {L : ℝ} {l : List ℕ} (h : Walk (restrict (distanceMatrix links dist) S) s x L l) :
    Conn S s x := by
  induction h with
  | nil => exact .refl
  | snoc _ he ih => exact ih.tail (mem_restrict.mp he).1

theorem conn_walk (hS : ∀ e ∈ S, e ∈ links) {s x : ℕ} (h : Conn S s x) :
    ∃ L l, Walk (restrict (distanceMatrix links dist) S) s x L l := by
  induction h with
  | refl => exact ⟨_, _, .nil⟩
  | tail _ he ih =>
    obtain ⟨L, l, hw⟩ := ih
    exact ⟨_, _, .snoc hw (mem_restrict.mpr ⟨he, hS _ he, rfl⟩)⟩

theorem walk_chain {s x : ℕ} {L : ℝ} {l : List ℕ} (h : Walk (restrict (distanceMatrix links dist) S) s x L l) :
    l.head? = some x ∧ l.getLast? = some s ∧ l.IsChain (fun a b => (b, a) ∈ S) := by
  induction h with
  | nil => simp
  | @snoc u x L w l hw he ih =>
    obtain ⟨h1, h2, h3⟩ := ih
    refine ⟨rfl, ?_, ?_⟩
    · rw [List.getLast?_cons, h2]; rfl
    · cases l with
      | nil => simp
      | cons y l =>
        obtain rfl : y = u := by simpa using h1
        exact List.isChain_cons_cons.mpr ⟨(mem_restrict.mp he).1, h3⟩

theorem walk_nonneg {G : Csr} (hok : Ok G n) {s x : ℕ} {L : ℝ} {l : List ℕ} (hw : Walk G s x L l) : 0 ≤ L := by
  induction hw with
  | nil => exact le_refl _
  | @snoc u x L w l _ he ihw =>
    have h1 : (0 : ℝ) ≤ w := WithTop.coe_le_coe.mp (show ((0 : ℝ) : WithTop ℝ) ≤ (w : WithTop ℝ) from hok.nonneg u _ he)
    linarith

theorem conn_symm (hs : ∀ e ∈ S, e.swap ∈ S) {a b : ℕ} (h : Conn S a b) : Conn S b a := by
  induction h with
  | refl => exact .refl
  | tail _ he ih => exact .head (hs _ he) ih

theorem conn_mono {T : Set (ℕ × ℕ)} (h : S ⊆ T) {a b : ℕ} (hc : Conn S a b) : Conn T a b :=
  Relation.ReflTransGen.mono (fun _ _ he => h he) _ _ hc

/-! ## The forest -/

/-- The links of the predecessors. -/
def predLinks (pred : ℕ → Option ℕ) (is : List ℕ) : Set (ℕ × ℕ) :=
  {e | ∃ i ∈ is, ∃ p, pred i = some p ∧ (e = (i, p) ∨ e = (p, i))}

theorem visit_fold (hl : Links links n) (S0 : Set (ℕ × ℕ)) (hS0 : ∀ e ∈ S0, e.swap ∈ S0) (pred : ℕ → Option ℕ)
    (hp : ∀ i p, pred i = some p → (i, p) ∈ links ∧ (i, p) ∈ S0) :
    ∀ (is U : List ℕ) (S : Set (ℕ × ℕ)), U.Nodup → is.Nodup → (∀ i ∈ is, ∀ p, pred i = some p → i ∈ U) →
      ∃ U', is.foldl (forestVisit (restrict (distanceMatrix links dist) S0) pred) (some (U, restrict (distanceMatrix links dist) S)) =
          some (U', restrict (distanceMatrix links dist) (S ∪ predLinks pred is)) ∧ U'.Nodup ∧
        ∀ x, x ∈ U' ↔ x ∈ U ∧ ¬ (x ∈ is ∧ pred x ≠ none) := by
  intro is
  induction is with
  | nil =>
    intro U S hU _ _
    refine ⟨U, ?_, hU, by simp⟩
    have : S ∪ predLinks pred [] = S := by ext e; simp [predLinks]
    rw [this]; rfl
  | cons i is ih =>
    intro U S hU his hin
    obtain ⟨hi, his⟩ := List.nodup_cons.mp his
    cases hpi : pred i with
    | none =>
      have e1 : forestVisit (restrict (distanceMatrix links dist) S0) pred (some (U, restrict (distanceMatrix links dist) S)) i =
          some (U, restrict (distanceMatrix links dist) S) := by simp [forestVisit, hpi]
      obtain ⟨U', h1, h2, h3⟩ := ih U S hU his (fun k hk => hin k (by simp [hk]))
      refine ⟨U', ?_, h2, ?_⟩
      · rw [List.foldl_cons, e1, h1]
        have : predLinks pred (i :: is) = predLinks pred is := by
          ext e; simp [predLinks, hpi]
        rw [this]
      · intro x
        rw [h3]
        constructor
        · rintro ⟨hx, hn⟩
          refine ⟨hx, ?_⟩
          rintro ⟨hx', hpx⟩
          rcases List.mem_cons.mp hx' with rfl | hx'
          · exact hpx hpi
          · exact hn ⟨hx', hpx⟩
        · rintro ⟨hx, hn⟩
          exact ⟨hx, fun hx' => hn ⟨by simp [hx'.1], hx'.2⟩⟩
    | some p =>
      have hiU : i ∈ U := hin i (by simp) p hpi
      have hip := hp i p hpi
      have hn := nodup_distanceMatrix (dist := dist) hl.nodup
      have e1 : forestVisit (restrict (distanceMatrix links dist) S0) pred (some (U, restrict (distanceMatrix links dist) S)) i =
          some (U.erase i, restrict (distanceMatrix links dist) (S ∪ {(i, p)} ∪ {(p, i)})) := by
        simp only [forestVisit, hpi, hiU, if_true,
          assign_restrict_from (hn i) (mem_distanceMatrix.mpr ⟨hip.1, rfl⟩) hip.2,
          assign_restrict_from (hn p) (mem_distanceMatrix.mpr ⟨hl.symm _ hip.1, rfl⟩) (hS0 _ hip.2)]
      obtain ⟨U', h1, h2, h3⟩ := ih (U.erase i) (S ∪ {(i, p)} ∪ {(p, i)}) (hU.erase i) his
        (fun k hk q hq => (List.mem_erase_of_ne (by rintro rfl; exact hi hk)).mpr (hin k (by simp [hk]) q hq))
      refine ⟨U', ?_, h2, ?_⟩
      · rw [List.foldl_cons, e1, h1]
        have : S ∪ {(i, p)} ∪ {(p, i)} ∪ predLinks pred is = S ∪ predLinks pred (i :: is) := by
          ext e
          simp only [predLinks, Set.mem_union, Set.mem_singleton_iff, Set.mem_ofPred_eq, List.mem_cons]
          constructor
          · rintro (((h | h) | h) | ⟨k, hk, q, hq, h⟩)
            · exact .inl h
            · exact .inr ⟨i, .inl rfl, p, hpi, .inl h⟩
            · exact .inr ⟨i, .inl rfl, p, hpi, .inr h⟩
            · exact .inr ⟨k, .inr hk, q, hq, h⟩
          · rintro (h | ⟨k, rfl | hk, q, hq, h⟩)
            · exact .inl (.inl (.inl h))
            · obtain rfl : p = q := Option.some.inj (hpi.symm.trans hq)
              rcases h with h | h
              · exact .inl (.inl (.inr h))
              · exact .inl (.inr h)
            · exact .inr ⟨k, hk, q, hq, h⟩
        rw [this]
      · intro x
        rw [h3, hU.mem_erase_iff]
        constructor
        · rintro ⟨⟨hxi, hx⟩, hn⟩
          refine ⟨hx, ?_⟩
          rintro ⟨hx', hpx⟩
          rcases List.mem_cons.mp hx' with h | hx'
          · exact hxi h
          · exact hn ⟨hx', hpx⟩
        · rintro ⟨hx, hn⟩
          refine ⟨⟨?_, hx⟩, fun hx' => hn ⟨by simp [hx'.1], hx'.2⟩⟩
          rintro rfl
          exact hn ⟨by simp, by simp [hpi]⟩

/-- The steps of a path of predecessors. -/
theorem calcPath_conn {pred : ℕ → Option ℕ} {s : ℕ} : ∀ (fuel x : ℕ) (l : List ℕ), calcPath pred s fuel x = some l →
    Relation.ReflTransGen (fun a b => pred b = some a) s x := by
  intro fuel
  induction fuel with
  | zero => intro x l h; cases h
  | succ k ih =>
    intro x l h
    unfold calcPath at h
    by_cases hx : x = s
    · subst hx; exact .refl
    · simp only [hx, if_false] at h
      cases hp : pred x with
      | none => rw [hp] at h; cases h
      | some p =>
        rw [hp] at h
        obtain ⟨l', h1, _⟩ := Option.map_eq_some_iff.mp h
        exact (ih p l' h1).tail hp

/-- Product of the steps of a path. -/
def pathProd {M : Type} [CommGroup M] (f : ℕ → ℕ → M) : List ℕ → M
  | [] => 1
  | [_] => 1
  | x :: p :: l => pathProd f (p :: l) * f p x

theorem calcPath_head {pred : ℕ → Option ℕ} {s : ℕ} {fuel x : ℕ} {l : List ℕ} (h : calcPath pred s fuel x = some l) :
    ∃ l', l = x :: l' := by
  cases fuel with
  | zero => cases h
  | succ k =>
    unfold calcPath at h
    by_cases hx : x = s
    · subst hx
      simp only [if_true, Option.some.injEq] at h
      exact ⟨[], h.symm⟩
    · simp only [hx, if_false] at h
      cases hp : pred x with
      | none => rw [hp] at h; cases h
      | some p =>
        rw [hp] at h
        obtain ⟨l', _, h2⟩ := Option.map_eq_some_iff.mp h
        exact ⟨l', h2.symm⟩

/-- A tree of predecessors has no loops. -/
theorem pred_forest {pred : ℕ → Option ℕ} {s : ℕ} (hs : pred s = none) {R : ℕ → Prop}
    (hR : ∀ x, R x → ∃ l, ∀ fuel, List.length l ≤ fuel → calcPath pred s fuel x = some l)
    (hRp : ∀ x p, pred x = some p → R x ∧ R p) {M : Type} [CommGroup M] (f : ℕ → ℕ → M) :
    ∃ θ : ℕ → M, ∀ x p, pred x = some p → θ x = θ p * f p x := by
  classical
  choose! l hl using hR
  refine ⟨fun x => pathProd f (l x), ?_⟩
  intro x p hp
  obtain ⟨hx, hp'⟩ := hRp x p hp
  have hxs : x ≠ s := by rintro rfl; rw [hs] at hp; cases hp
  have h1 := hl x hx (max (l x).length (l p).length + 1) (by omega)
  have h2 := hl p hp' (max (l x).length (l p).length) (by omega)
  rw [calcPath] at h1
  simp only [hxs, if_false, hp, h2, Option.map_some, Option.some.injEq] at h1
  obtain ⟨l', e⟩ := calcPath_head h2
  show pathProd f (l x) = pathProd f (l p) * f p x
  rw [← h1, e]
  rfl

/-- Invariant of the `while` loop of `_shortest_distance_forest`. -/
structure FInv (S0 : Set (ℕ × ℕ)) (n : ℕ) (U : List ℕ) (S : Set (ℕ × ℕ)) : Prop where
  nodup : U.Nodup
  lt : ∀ x ∈ U, x < n
  sub : ∀ e ∈ S, e ∈ S0
  symm : ∀ e ∈ S, e.swap ∈ S
  closed : ∀ x y, (x, y) ∈ S0 → x ∈ U → y ∈ U
  visited : ∀ x y, (x, y) ∈ S → x ∉ U
  conn : ∀ x y, (x, y) ∈ S0 → x ∉ U → Conn S x y
  forest : Forest S

theorem forest_loop {S0 : Set (ℕ × ℕ)} (hl : Links links n) (hd : ∀ i j, 0 ≤ dist i j) (hpick : MinPick pick) (hch : Choose choose)
    (hsub : ∀ e ∈ S0, e ∈ links) (hsl : ∀ e ∈ S0, e.swap ∈ S0) :
    ∀ (fuel : ℕ) (U : List ℕ) (S : Set (ℕ × ℕ)), FInv S0 n U S → U.length < fuel →
      ∃ S', forestLoop pick choose (restrict (distanceMatrix links dist) S0) n fuel U (restrict (distanceMatrix links dist) S) =
        some (restrict (distanceMatrix links dist) S') ∧ FInv S0 n [] S' := by
  intro fuel
  induction fuel with
  | zero => intro U S _ h; omega
  | succ k ih =>
    intro U S hI hlen
    by_cases hU : U = []
    · subst hU
      exact ⟨S, rfl, hI⟩
    · have hrU := hch U hU
      have hrn := hI.lt _ hrU
      have hok : Ok (restrict (distanceMatrix links dist) S0) n := ok_restrict hl hd
      obtain ⟨pred, e1, p1, p2, p3, p4⟩ :=
        C63_predecessors (G := restrict (distanceMatrix links dist) S0) (pick := pick) (t := n + 1) hok hpick hrn (by omega)
      set r := choose U with hr
      -- the reached nodes
      have hreach : ∀ x, (∃ L l, Walk (restrict (distanceMatrix links dist) S0) r x L l) ↔ Conn S0 r x := by
        intro x
        constructor
        · rintro ⟨L, l, hw⟩
          exact walk_conn hw
        · intro h
          exact conn_walk (dist := dist) (links := links) (S := S0) hsub h
      have hRU : ∀ x, Conn S0 r x → x ∈ U := by
        intro x h
        induction h with
        | refl => exact hrU
        | tail _ he ih => exact hI.closed _ _ he ih
      have hpl : ∀ i p, pred i = some p → (i, p) ∈ S0 := by
        intro i p h
        obtain ⟨w, hw, _⟩ := p4 i p h
        exact hsl _ (mem_restrict.mp hw).1
      have hpR : ∀ i p, pred i = some p → Conn S0 r i ∧ Conn S0 r p := by
        intro i p h
        obtain ⟨w, hw, L, l, hw'⟩ := p4 i p h
        have h2 := (hreach p).mp ⟨L, l, hw'⟩
        exact ⟨h2.tail (mem_restrict.mp hw).1, h2⟩
      have hpr : ∀ i p, pred i = some p → i ≠ r := by
        rintro i p h rfl; rw [p1] at h; cases h
      obtain ⟨U', v1, v2, v3⟩ := visit_fold (dist := dist) hl S0 hsl pred (fun i p h => ⟨hsub _ (hpl i p h), hpl i p h⟩) (List.range n) (U.erase r) S (hI.nodup.erase r)
        List.nodup_range (fun i _ p h => (List.mem_erase_of_ne (hpr i p h)).mpr (hRU i (hpR i p h).1))
      have hU' : ∀ x, x ∈ U' ↔ x ∈ U ∧ ¬ Conn S0 r x := by
        intro x
        rw [v3, hI.nodup.mem_erase_iff]
        constructor
        · rintro ⟨⟨hxr, hx⟩, hn⟩
          refine ⟨hx, fun hc => hn ⟨List.mem_range.mpr (hI.lt x hx), ?_⟩⟩
          obtain ⟨p, hp⟩ := (p3 x hxr).mp ((hreach x).mpr hc)
          simp [hp]
        · rintro ⟨hx, hc⟩
          refine ⟨⟨by rintro rfl; exact hc .refl, hx⟩, ?_⟩
          rintro ⟨_, hp⟩
          obtain ⟨p, hp⟩ := Option.ne_none_iff_exists'.mp hp
          exact hc (hpR x p hp).1
      set T := S ∪ predLinks pred (List.range n) with hT
      have hTmem : ∀ i p, pred i = some p → (i, p) ∈ T ∧ (p, i) ∈ T := by
        intro i p h
        have hi : i ∈ List.range n := List.mem_range.mpr (hI.lt i (hRU i (hpR i p h).1))
        exact ⟨.inr ⟨i, hi, p, h, .inl rfl⟩, .inr ⟨i, hi, p, h, .inr rfl⟩⟩
      have hTs : ∀ e ∈ T, e.swap ∈ T := by
        rintro e (he | ⟨i, hi, p, hp, rfl | rfl⟩)
        · exact .inl (hI.symm e he)
        · exact (hTmem i p hp).2
        · exact (hTmem i p hp).1
      have hconnT : ∀ x, Conn S0 r x → Conn T r x := by
        intro x hx
        obtain ⟨_, l, _, _, _, hc⟩ := p2 x ((hreach x).mpr hx)
        have := calcPath_conn _ _ _ (hc _ le_rfl)
        exact Relation.ReflTransGen.mono (fun a b h => (hTmem b a h).2) _ _ this
      have hI' : FInv S0 n U' T := by
        refine ⟨v2, fun x hx => hI.lt x ((hU' x).mp hx).1, ?_, hTs, ?_, ?_, ?_, ?_⟩
        · rintro e (he | ⟨i, hi, p, hp, rfl | rfl⟩)
          · exact hI.sub e he
          · exact hpl i p hp
          · exact hsl _ (hpl i p hp)
        · intro x y hxy hx
          obtain ⟨h1, h2⟩ := (hU' x).mp hx
          exact (hU' y).mpr ⟨hI.closed x y hxy h1, fun hc => h2 (hc.tail (hsl _ hxy))⟩
        · rintro x y (h | ⟨i, hi, p, hp, h | h⟩) hx
          · exact hI.visited x y h ((hU' x).mp hx).1
          · obtain ⟨rfl, rfl⟩ := Prod.mk.inj h
            exact ((hU' x).mp hx).2 (hpR x y hp).1
          · obtain ⟨rfl, rfl⟩ := Prod.mk.inj h
            exact ((hU' x).mp hx).2 (hpR y x hp).2
        · intro x y hxy hx
          by_cases hxU : x ∈ U
          · have hc : Conn S0 r x := by
              by_contra hc; exact hx ((hU' x).mpr ⟨hxU, hc⟩)
            exact (conn_symm hTs (hconnT x hc)).trans (hconnT y (hc.tail hxy))
          · exact conn_mono (fun e he => .inl he) (hI.conn x y hxy hxU)
        · intro M _ f hf
          classical
          obtain ⟨φ, hφ⟩ := hI.forest M f hf
          obtain ⟨θ, hθ⟩ := pred_forest (R := fun x => Conn S0 r x) p1
            (fun x hx => by
              obtain ⟨_, l, _, _, _, hc⟩ := p2 x ((hreach x).mpr hx)
              exact ⟨l, hc⟩) hpR f
          have hnv : ∀ x y, (x, y) ∈ S → ¬ Conn S0 r x := fun x y h hc => hI.visited x y h (hRU x hc)
          refine ⟨fun x => if Conn S0 r x then θ x else φ x, ?_⟩
          rintro i j (h | ⟨a, _, p, hp, h | h⟩)
          · simp only [hnv i j h, hnv j i (hI.symm _ h), if_false]
            exact hφ i j h
          · obtain ⟨rfl, rfl⟩ := Prod.mk.inj h
            simp only [(hpR i j hp).1, (hpR i j hp).2, if_true]
            rw [hθ i j hp, hf j i]
            group
          · obtain ⟨rfl, rfl⟩ := Prod.mk.inj h
            simp only [(hpR j i hp).1, (hpR j i hp).2, if_true]
            rw [hθ j i hp]
            group
      have hlt : U'.length < k := by
        have h1 : U'.length ≤ (U.erase r).length := by
          apply (List.subperm_of_subset v2 ?_).length_le
          intro x hx
          exact ((v3 x).mp hx).1
        have h2 : (U.erase r).length = U.length - 1 := List.length_erase_of_mem hrU
        have h3 : 0 < U.length := List.length_pos_iff.mpr hU
        omega
      obtain ⟨S', e2, hI2⟩ := ih U' T hI' hlt
      refine ⟨S', ?_, hI2⟩
      obtain ⟨u, us, hus⟩ := List.exists_cons_of_ne_nil hU
      rw [forestLoop.eq_def]
      simp only
      rw [hus] at hr v1 ⊢
      simp only [← hr, e1, v1]
      exact e2

/-- `_shortest_distance_forest` on a matrix in which only the links of `S0` are finite. -/
theorem forest_spec_from (hl : Links links n) (hd : ∀ i j, 0 ≤ dist i j) (hpick : MinPick pick) (hch : Choose choose)
    {S0 : Set (ℕ × ℕ)} (hsub : ∀ e ∈ S0, e ∈ links) (hsl : ∀ e ∈ S0, e.swap ∈ S0) :
    ∃ S, shortestDistanceForest pick choose (restrict (distanceMatrix links dist) S0) n =
        some (restrict (distanceMatrix links dist) S) ∧
      (∀ e ∈ S, e ∈ S0) ∧ (∀ e ∈ S, e.swap ∈ S) ∧ (∀ x y, (x, y) ∈ S0 → Conn S x y) ∧ Forest S := by
  have hI : FInv S0 n (List.range n) ∅ := by
    refine ⟨List.nodup_range, fun x hx => List.mem_range.mp hx, by simp, by simp, ?_, by simp, ?_, ?_⟩
    · intro x y h _; exact List.mem_range.mpr (hl.lt _ (hl.symm _ (hsub _ h)))
    · intro x y h hx; exact absurd (List.mem_range.mpr (hl.lt _ (hsub _ h))) hx
    · intro M _ f _; exact ⟨fun _ => 1, by simp⟩
  obtain ⟨S', e, hI'⟩ := forest_loop pick choose hl hd hpick hch hsub hsl (n + 1) (List.range n) ∅ hI (by simp)
  refine ⟨S', ?_, hI'.sub, hI'.symm, fun x y h => hI'.conn x y h (by simp), hI'.forest⟩
  rw [restrict_empty] at e
  have h2 : allInf (restrict (distanceMatrix links dist) S0) = allInf (distanceMatrix links dist) := by
    funext i; simp [allInf, restrict]
  rw [shortestDistanceForest, h2]
  exact e

theorem forest_spec (hl : Links links n) (hd : ∀ i j, 0 ≤ dist i j) (hpick : MinPick pick) (hch : Choose choose) :
    ∃ S, shortestDistanceForest pick choose (distanceMatrix links dist) n = some (restrict (distanceMatrix links dist) S) ∧
      (∀ e ∈ S, e ∈ links) ∧ (∀ e ∈ S, e.swap ∈ S) ∧ (∀ x y, (x, y) ∈ links → Conn S x y) ∧ Forest S := by
  have := forest_spec_from pick choose hl hd hpick hch (dist := dist) (S0 := {e | e ∈ links}) (fun e he => he)
    (fun e he => hl.symm e he)
  rwa [restrict_links] at this

end

/-! ## The loops -/

section
variable {links : List (ℕ × ℕ)} {dist : ℕ → ℕ → ℝ} {n : ℕ} {S : Set (ℕ × ℕ)}

theorem mem_linksToFind {i j : ℕ} (hl : Links links n) :
    (i, j) ∈ linksToFind (distanceMatrix links dist) (restrict (distanceMatrix links dist) S) n ↔
      (i, j) ∈ links ∧ (i, j) ∉ S ∧ i ≤ j := by
  classical
  have hz : ∀ i, (distanceMatrix links dist i).zip (restrict (distanceMatrix links dist) S i) =
      (distanceMatrix links dist i).map fun e => (e, (e.1, if (i, e.1) ∈ S then e.2 else ⊤)) := by
    intro i
    unfold restrict
    apply List.ext_getElem
    · simp
    · intro k h1 h2; simp
  simp only [linksToFind, List.mem_flatMap, List.mem_range, hz, List.mem_map, List.mem_filter, decide_eq_true_eq]
  constructor
  · rintro ⟨i', _, _, ⟨⟨⟨j', w⟩, h1, rfl⟩, h2, h3⟩, h4⟩
    obtain ⟨rfl, rfl⟩ := Prod.mk.inj h4
    refine ⟨(mem_distanceMatrix.mp h1).1, ?_, h3⟩
    intro hS
    simp [hS] at h2
  · rintro ⟨h1, h2, h3⟩
    refine ⟨i, hl.lt _ h1, _, ⟨⟨(j, _), mem_distanceMatrix.mpr ⟨h1, rfl⟩, rfl⟩, ?_, h3⟩, rfl⟩
    simp [h2]

theorem nodup_linksToFind (hl : Links links n) :
    (linksToFind (distanceMatrix links dist) (restrict (distanceMatrix links dist) S) n).Nodup := by
  classical
  unfold linksToFind
  rw [List.nodup_flatMap]
  refine ⟨fun i _ => ?_, ?_⟩
  · have h1 : (((distanceMatrix links dist i).zip (restrict (distanceMatrix links dist) S i)).map fun e => e.1.1).Nodup := by
      have := nodup_distanceMatrix (dist := dist) hl.nodup i
      have e : ((distanceMatrix links dist i).zip (restrict (distanceMatrix links dist) S i)).map (fun e => e.1.1) =
          (distanceMatrix links dist i).map Prod.fst := by
        rw [show (fun e : (ℕ × WithTop ℝ) × (ℕ × WithTop ℝ) => e.1.1) = Prod.fst ∘ Prod.fst from rfl, ← List.map_map,
          List.map_fst_zip (by simp [restrict])]
      rwa [e]
    have h2 := List.Nodup.of_map _ h1
    refine List.Nodup.map_on ?_ (h2.filter _)
    intro x hx y hy e
    exact List.inj_on_of_nodup_map h1 (List.mem_filter.mp hx).1 (List.mem_filter.mp hy).1 (Prod.mk.inj e).2
  · refine List.nodup_range.pairwise_of_forall_ne ?_
    intro a _ b _ hab
    rw [Function.onFun, List.disjoint_left]
    intro x hx hy
    obtain ⟨_, _, rfl⟩ := List.mem_map.mp hx
    obtain ⟨_, _, h⟩ := List.mem_map.mp hy
    exact hab (Prod.mk.inj h).1.symm

theorem map_getD_perm {l : List (ℕ × ℕ)} {idx : List ℕ} (h : idx.Perm (List.range l.length)) :
    (idx.map fun i => l.getD i (0, 0)).Perm l := by
  refine (h.map _).trans ?_
  have : (List.range l.length).map (fun i => l.getD i (0, 0)) = l := by
    apply List.ext_getElem
    · simp
    · intro i h1 h2; simp [h2]
  rw [this]

/-- `_order_links` permutes the links, and the first one has the reported length. -/
theorem orderLinks_spec (hA : ArgSort argsort) {sub : Csr} (l : List (ℕ × ℕ)) :
    (orderLinks pick argsort sub n l).1.Perm l ∧
    ∀ e rest, (orderLinks pick argsort sub n l).1 = e :: rest →
      (orderLinks pick argsort sub n l).2 = ((dijkstraOne sub pick n e.1 e.2).map Prod.snd).getD 0 := by
  cases l with
  | nil => exact ⟨by simp [orderLinks], by simp [orderLinks]⟩
  | cons a l =>
    have hlen : (dijkstraPaths sub pick n (a :: l)).2.length = (a :: l).length := by simp [dijkstraPaths]
    obtain ⟨h1, _⟩ := hA (dijkstraPaths sub pick n (a :: l)).2
    rw [hlen] at h1
    refine ⟨map_getD_perm h1, ?_⟩
    intro e rest he
    simp only [orderLinks] at he ⊢
    cases hi : argsort (dijkstraPaths sub pick n (a :: l)).2 with
    | nil => rw [hi] at he; cases he
    | cons k idx =>
      rw [hi, List.map_cons] at he
      have hk : k < (a :: l).length := by
        have : k ∈ List.range (a :: l).length := h1.mem_iff.mp (by rw [hi]; simp)
        exact List.mem_range.mp this
      have hek : e = (a :: l)[k] := by
        have := (List.cons.inj he).1
        rw [← this, List.getD, List.getElem?_eq_getElem hk]; rfl
      rw [List.headD_cons, List.getD, List.getElem?_eq_getElem (by rw [hlen]; exact hk), hek]
      simp only [dijkstraPaths, List.getElem_map]
      rfl

/-- Invariant of the `while` loop of `_find_loops`. -/
structure LInv (links : List (ℕ × ℕ)) (S : Set (ℕ × ℕ)) (l : List (ℕ × ℕ)) : Prop where
  sub : ∀ e ∈ S, e ∈ links
  symm : ∀ e ∈ S, e.swap ∈ S
  conn : ∀ x y, (x, y) ∈ links → Conn S x y
  nodup : l.Nodup
  mem : ∀ e ∈ l, e ∈ links ∧ e ∉ S ∧ e.1 < e.2
  all : ∀ e ∈ links, e ∈ S ∨ e ∈ l ∨ e.swap ∈ l

theorem findLoops_loop (hl : Links links n) (hd : ∀ i j, 0 ≤ dist i j) (hpick : MinPick pick) (hA : ArgSort argsort) :
    ∀ (fuel : ℕ) (S : Set (ℕ × ℕ)) (l : List (ℕ × ℕ)) (m : ℝ) (acc : List (List ℕ)), LInv links S l →
      (2 * l.length + 1 ≤ fuel ∨ (2 * l.length ≤ fuel ∧ ∃ e rest, l = e :: rest ∧
        m = ((dijkstraOne (restrict (distanceMatrix links dist) S) pick n e.1 e.2).map Prod.snd).getD 0)) →
      ∃ loops, findLoopsLoop pick argsort (distanceMatrix links dist) n fuel (restrict (distanceMatrix links dist) S) l m acc =
        some (acc ++ loops) ∧ Ordered links S loops := by
  intro fuel
  induction fuel with
  | zero =>
    intro S l m acc hI hf
    rcases hf with hf | ⟨hf, e, rest, rfl, _⟩
    · omega
    · simp at hf
  | succ k ih =>
    intro S l m acc hI hf
    cases l with
    | nil =>
      refine ⟨[], by simp [findLoopsLoop], ?_⟩
      intro e he
      rcases hI.all e he with h | h | h
      · exact h
      · simp at h
      · simp at h
    | cons e rest =>
      obtain ⟨frm, to_⟩ := e
      obtain ⟨hlk, hnS, hlt⟩ := hI.mem (frm, to_) (by simp)
      have hok : Ok (restrict (distanceMatrix links dist) S) n := ok_restrict hl hd
      obtain ⟨path, len, e1, hw, _, _⟩ := (C63_dijkstra (t := to_) hok hpick (hl.lt _ hlk)).1
        (conn_walk hI.sub (hI.conn _ _ hlk))
      have hlen0 : 0 ≤ len := by
        exact walk_nonneg hok hw
      by_cases hm : len > m * (11 / 10)
      · -- reorder
        have hf' : 2 * (rest.length + 1) + 1 ≤ k + 1 := by
          rcases hf with hf | ⟨hf, e, r, he, hme⟩
          · simpa using hf
          · exfalso
            obtain rfl := (List.cons.inj he).1
            rw [e1] at hme
            simp at hme
            rw [hme] at hm
            linarith
        obtain ⟨o1, o2⟩ := orderLinks_spec pick argsort hA (n := n) (sub := restrict (distanceMatrix links dist) S)
          ((frm, to_) :: rest)
        have hI' : LInv links S (orderLinks pick argsort (restrict (distanceMatrix links dist) S) n ((frm, to_) :: rest)).1 :=
          ⟨hI.sub, hI.symm, hI.conn, o1.nodup_iff.mpr hI.nodup, fun e he => hI.mem e (o1.mem_iff.mp he), fun e he => by
            rcases hI.all e he with h | h | h
            · exact .inl h
            · exact .inr (.inl (o1.mem_iff.mpr h))
            · exact .inr (.inr (o1.mem_iff.mpr h))⟩
        have hol := o1.length_eq
        obtain ⟨loops, e2, h2⟩ := ih S _ (orderLinks pick argsort (restrict (distanceMatrix links dist) S) n ((frm, to_) :: rest)).2
          acc hI' (by
            right
            refine ⟨by rw [hol]; simp; omega, ?_⟩
            cases ho : (orderLinks pick argsort (restrict (distanceMatrix links dist) S) n ((frm, to_) :: rest)).1 with
            | nil => rw [ho] at hol; simp at hol
            | cons e r => exact ⟨e, r, rfl, o2 e r ho⟩)
        refine ⟨loops, ?_, h2⟩
        simp only [findLoopsLoop, e1, hm, if_true]
        exact e2
      · have hn := nodup_distanceMatrix (dist := dist) hl.nodup
        have a1 := assign_restrict (S := S) (hn frm) (mem_distanceMatrix.mpr ⟨hlk, rfl⟩)
        have a2 := assign_restrict (S := S ∪ {(frm, to_)}) (hn to_) (mem_distanceMatrix.mpr ⟨hl.symm _ hlk, rfl⟩)
        have hS : S ∪ {(frm, to_)} ∪ {(to_, frm)} = S ∪ {(frm, to_), (to_, frm)} := by
          rw [Set.union_assoc]; rfl
        rw [hS] at a2
        obtain ⟨hnr, hnd⟩ := List.nodup_cons.mp hI.nodup
        have hI' : LInv links (S ∪ {(frm, to_), (to_, frm)}) rest := by
          refine ⟨?_, ?_, fun x y h => conn_mono (fun e he => .inl he) (hI.conn x y h), hnd, ?_, ?_⟩
          · rintro e (h | rfl | rfl)
            · exact hI.sub e h
            · exact hlk
            · exact hl.symm _ hlk
          · rintro e (h | rfl | rfl)
            · exact .inl (hI.symm e h)
            · exact .inr (.inr rfl)
            · exact .inr (.inl rfl)
          · intro e he
            obtain ⟨h1, h2, h3⟩ := hI.mem e (by simp [he])
            refine ⟨h1, ?_, h3⟩
            rintro (h | rfl | rfl)
            · exact h2 h
            · exact hnr he
            · simp at h3; omega
          · intro e he
            rcases hI.all e he with h | h | h
            · exact .inl (.inl h)
            · rcases List.mem_cons.mp h with rfl | h
              · exact .inl (.inr (.inl rfl))
              · exact .inr (.inl h)
            · rcases List.mem_cons.mp h with h | h
              · refine .inl (.inr (.inr ?_))
                have : e = ((frm, to_) : ℕ × ℕ).swap := by rw [← h]; simp
                simpa using this
              · exact .inr (.inr h)
        obtain ⟨loops, e2, h2⟩ := ih _ rest m (acc ++ [path]) hI' (by
          left
          rcases hf with hf | ⟨hf, _⟩ <;> simp at hf <;> omega)
        obtain ⟨w1, w2, w3⟩ := walk_chain hw
        refine ⟨path :: loops, ?_, frm, to_, w1, w2, hlk, hnS, fun h => hnS (hI.symm _ h), ?_, h2⟩
        · simp only [findLoopsLoop, e1, hm, if_false, a1, a2, e2]
          simp
        · exact w3.imp fun a b h => hI.symm (b, a) h

/-- `_find_loops` for a subgraph that connects the ends of every link. -/
theorem findLoops_spec (hl : Links links n) (hd : ∀ i j, 0 ≤ dist i j) (hpick : MinPick pick) (hA : ArgSort argsort)
    (h1 : ∀ e ∈ S, e ∈ links) (h2 : ∀ e ∈ S, e.swap ∈ S) (h3 : ∀ x y, (x, y) ∈ links → Conn S x y) :
    ∃ loops, findLoops pick argsort (distanceMatrix links dist) (restrict (distanceMatrix links dist) S) n = some loops ∧
      Ordered links S loops := by
  have hI : LInv links S (linksToFind (distanceMatrix links dist) (restrict (distanceMatrix links dist) S) n) := by
    refine ⟨h1, h2, h3, nodup_linksToFind hl, ?_, ?_⟩
    · rintro ⟨i, j⟩ he
      obtain ⟨a, b, c⟩ := (mem_linksToFind hl).mp he
      have := hl.irrefl _ a
      simp only at this
      exact ⟨a, b, lt_of_le_of_ne c this⟩
    · rintro ⟨i, j⟩ he
      by_cases hS : (i, j) ∈ S
      · exact .inl hS
      · rcases le_total i j with hij | hij
        · exact .inr (.inl ((mem_linksToFind hl).mpr ⟨he, hS, hij⟩))
        · exact .inr (.inr ((mem_linksToFind hl).mpr ⟨hl.symm _ he, fun h => hS (h2 _ h), hij⟩))
  obtain ⟨o1, o2⟩ := orderLinks_spec pick argsort hA (n := n) (sub := restrict (distanceMatrix links dist) S)
    (linksToFind (distanceMatrix links dist) (restrict (distanceMatrix links dist) S) n)
  have hI' : LInv links S (orderLinks pick argsort (restrict (distanceMatrix links dist) S) n
      (linksToFind (distanceMatrix links dist) (restrict (distanceMatrix links dist) S) n)).1 :=
    ⟨hI.sub, hI.symm, hI.conn, o1.nodup_iff.mpr hI.nodup, fun e he => hI.mem e (o1.mem_iff.mp he), fun e he => by
      rcases hI.all e he with h | h | h
      · exact .inl h
      · exact .inr (.inl (o1.mem_iff.mpr h))
      · exact .inr (.inr (o1.mem_iff.mpr h))⟩
  obtain ⟨loops, e2, h5⟩ := findLoops_loop pick argsort hl hd hpick hA
    (2 * (linksToFind (distanceMatrix links dist) (restrict (distanceMatrix links dist) S) n).length + 1) S _
    (orderLinks pick argsort (restrict (distanceMatrix links dist) S) n
      (linksToFind (distanceMatrix links dist) (restrict (distanceMatrix links dist) S) n)).2 [] hI'
    (.inl (by rw [o1.length_eq]))
  refine ⟨loops, ?_, h5⟩
  simp only [findLoops]
  simpa using e2

/-- C62, the loops of a finite system: the calculation ends without an exception.  The links start from a forest
`tree` that connects the ends of every link; the loops then follow in the order required. -/
theorem C62_loops (hl : Links links n) (hd : ∀ i j, 0 ≤ dist i j) (hpick : MinPick pick) (hch : Choose choose)
    (hA : ArgSort argsort) :
    ∃ (tree : Set (ℕ × ℕ)) (loops : List (List ℕ)), loopsInFinite pick choose argsort links dist n = some loops ∧
      (∀ e ∈ tree, e ∈ links) ∧ (∀ e ∈ tree, e.swap ∈ tree) ∧ Forest tree ∧
      (∀ x y, (x, y) ∈ links → Conn tree x y) ∧ Ordered links tree loops := by
  obtain ⟨S, e, h1, h2, h3, h4⟩ := forest_spec pick choose hl hd hpick hch (dist := dist)
  obtain ⟨loops, e2, h5⟩ := findLoops_spec pick argsort hl hd hpick hA h1 h2 h3
  exact ⟨S, loops, by simp only [loopsInFinite, e, e2], h1, h2, h4, h3, h5⟩

end
end Kwant.Gauge
