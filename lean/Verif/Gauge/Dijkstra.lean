import Mathlib.Data.Real.Basic
import Mathlib.Order.WithBot
import Mathlib.Data.List.Nodup
import Mathlib.Data.List.Range
import Mathlib.Data.Finset.Card
import Mathlib.Data.Finset.Range
import Mathlib.Tactic.Linarith

/-!
# C63: `dijkstra_directed`

Model of `kwant/graph/dijkstra.pyx` (l.60-178).

Simplifications
* The CSR matrix is a function from rows to the list of its (column, weight) entries, in storage order;
  an infinite weight is `⊤`.  Exact arithmetic.
* The heap is the collection of the nodes in it; `remove_min` (l.346-395) returns *some* node of minimal
  value (`MinPick`); which one is left open.
* The arrays of nodes are functions of the index.
-/
set_option linter.unusedSectionVars false

namespace Kwant.Dijkstra

/-- Rows of a CSR matrix. -/
abbrev Csr := ℕ → List (ℕ × WithTop ℝ)

/-- `FibonacciState` (dijkstra.pyx l.185-188). -/
inductive Status where
  | scanned
  | notInHeap
  | inHeap
deriving DecidableEq

/-- The arrays `nodes`, `pred` and the heap. -/
structure St where
  status : ℕ → Status
  val : ℕ → ℝ
  pred : ℕ → Option ℕ
  heap : List ℕ

/-- `initialize_node` for all nodes, `pred[:] = -1`, `insert_node(&heap, &nodes[j_source])`
(dijkstra.pyx l.126-131, l.202-215). -/
def init (s : ℕ) : St := ⟨fun _ => .notInHeap, fun _ => 0, fun _ => none, [s]⟩

/-- Body of the loop over the entries of a row (dijkstra.pyx l.143-161). -/
noncomputable def relax (v : ℕ) (st : St) (e : ℕ × WithTop ℝ) : St :=
  match e.2 with
  | ⊤ => st
  | (w : ℝ) =>
    if st.status e.1 = .scanned then st
    else if st.status e.1 = .notInHeap then
      { status := Function.update st.status e.1 .inHeap
        val := Function.update st.val e.1 (st.val v + w)
        pred := Function.update st.pred e.1 (some v)
        heap := st.heap ++ [e.1] }
    else if st.val e.1 > st.val v + w then
      { st with
        val := Function.update st.val e.1 (st.val v + w)
        pred := Function.update st.pred e.1 (some v) }
    else st

/-- `v = remove_min(&heap); v.state = SCANNED` (dijkstra.pyx l.134-135). -/
def pop (v : ℕ) (st : St) : St :=
  { st with status := Function.update st.status v .scanned, heap := st.heap.erase v }

variable (G : Csr) (pick : List ℕ → (ℕ → ℝ) → ℕ)

/-- The `while` loop (dijkstra.pyx l.133-161).  The result has the final state, and the value of the target if
it was found; `none` means that the model ran out of fuel. -/
noncomputable def loop (t : ℕ) : ℕ → St → Option (St × Option ℝ)
  | 0, _ => none
  | fuel + 1, st =>
    match st.heap with
    | [] => some (st, none)
    | _ =>
      let v := pick st.heap st.val
      let st1 := pop v st
      if v = t then some (st1, some (st1.val v))
      else loop t fuel ((G v).foldl (relax v) st1)

/-- `_calculate_path` (dijkstra.pyx l.172-179). -/
def calcPath (pred : ℕ → Option ℕ) (s : ℕ) : ℕ → ℕ → Option (List ℕ)
  | 0, _ => none
  | fuel + 1, node =>
    if node = s then some [s]
    else
      match pred node with
      | none => none
      | some p => (calcPath pred s fuel p).map (node :: ·)

/-- One iteration of the outer loop (dijkstra.pyx l.122-161) for a graph of `n` nodes: the path and its length
if the target is found. -/
noncomputable def dijkstraOne (n s t : ℕ) : Option (List ℕ × ℝ) :=
  match loop G pick t (n + 1) (init s) with
  | some (st, some len) => (calcPath st.pred s (n + 1) t).map fun p => (p, len)
  | _ => none

/-- `dijkstra_directed(graph, sources, targets)` with `return_paths` (dijkstra.pyx l.60-163): `path_lengths` is
initialized with zeros, `paths` only gets the paths that are found. -/
noncomputable def dijkstraPaths (n : ℕ) (links : List (ℕ × ℕ)) : List (List ℕ) × List ℝ :=
  (links.filterMap fun l => (dijkstraOne G pick n l.1 l.2).map Prod.fst,
   links.map fun l => ((dijkstraOne G pick n l.1 l.2).map Prod.snd).getD 0)

/-- `dijkstra_directed(..., return_predecessors=True)` for one source. -/
noncomputable def dijkstraPred (n s t : ℕ) : Option (ℕ → Option ℕ) :=
  (loop G pick t (n + 1) (init s)).map fun r => r.1.pred

/-! ## Specification -/

/-- `remove_min` returns a node of the heap with minimal value. -/
def MinPick : Prop := ∀ (h : List ℕ) (val : ℕ → ℝ), h ≠ [] → pick h val ∈ h ∧ ∀ x ∈ h, val (pick h val) ≤ val x

/-- `Walk G s x L l`: `l` lists the nodes of a walk from `s` to `x` along edges of finite weight, last node
first; `L` is its length. -/
inductive Walk (s : ℕ) : ℕ → ℝ → List ℕ → Prop where
  | nil : Walk s s 0 [s]
  | snoc {u x : ℕ} {L w : ℝ} {l : List ℕ} : Walk s u L l → (x, (w : WithTop ℝ)) ∈ G u → Walk s x (L + w) (x :: l)

/-- Entries are in range and weights are not negative. -/
structure Ok (n : ℕ) : Prop where
  lt : ∀ u, ∀ e ∈ G u, e.1 < n
  nonneg : ∀ u, ∀ e ∈ G u, (0 : WithTop ℝ) ≤ e.2

/-! ## Invariant -/

variable {G pick}

/-- The part of the invariant that concerns single nodes; `src`: the source. -/
structure Inv (n s t : ℕ) (st : St) : Prop where
  /-- nodes in the heap -/
  heapStatus : ∀ x, x ∈ st.heap ↔ (st.status x = .inHeap ∨ (x = s ∧ st.status s = .notInHeap))
  nodup : st.heap.Nodup
  lt : ∀ x, (x ∈ st.heap ∨ st.status x = .scanned) → x < n
  /-- the source -/
  src : st.val s = 0 ∧ st.pred s = none ∧ (st.status s = .scanned ∨ (st.status s = .notInHeap ∧ ∀ x, st.status x = .notInHeap))
  /-- scanned nodes have a path of scanned nodes -/
  path : ∀ x, st.status x = .scanned → ∃ l, Walk G s x (st.val x) l ∧ l.Nodup ∧
    (∀ y ∈ l, st.status y = .scanned) ∧ ∀ fuel, l.length ≤ fuel → calcPath st.pred s fuel x = some l
  /-- nodes in the heap have a scanned predecessor -/
  front : ∀ x, st.status x = .inHeap → ∃ p w, st.pred x = some p ∧ st.status p = .scanned ∧
    (x, ((w : ℝ) : WithTop ℝ)) ∈ G p ∧ st.val x = st.val p + w
  mono : ∀ x y, st.status x = .scanned → y ∈ st.heap → st.val x ≤ st.val y
  predNone : ∀ x, st.status x = .notInHeap → st.pred x = none
  target : st.status t ≠ .scanned

/-- Edges out of scanned nodes are relaxed. -/
def Relaxed (G : Csr) (P : ℕ → Prop) (st : St) : Prop :=
  ∀ u, P u → ∀ y w, (y, ((w : ℝ) : WithTop ℝ)) ∈ G u → st.status y ≠ .notInHeap ∧ st.val y ≤ st.val u + w

/-- Every walk leads to a scanned node, or has passed the heap. -/
theorem walk_dichotomy {n s t : ℕ} {st : St} (hok : Ok G n) (h : Inv (G := G) n s t st)
    (hr : Relaxed G (fun u => st.status u = .scanned) st) {x : ℕ} {L : ℝ} {l : List ℕ} (hw : Walk G s x L l) :
    (st.status x = .scanned ∧ st.val x ≤ L) ∨ ∃ y ∈ st.heap, st.val y ≤ L := by
  induction hw with
  | nil =>
    rcases h.src.2.2 with hs | ⟨hs, _⟩
    · exact .inl ⟨hs, h.src.1.le⟩
    · exact .inr ⟨s, (h.heapStatus s).mpr (.inr ⟨rfl, hs⟩), h.src.1.le⟩
  | @snoc u x L w l hw he ih =>
    have hw0 : (0 : ℝ) ≤ w := by
      have := hok.nonneg u _ he
      exact WithTop.coe_le_coe.mp (show ((0 : ℝ) : WithTop ℝ) ≤ (w : WithTop ℝ) from this)
    rcases ih with ⟨hu, hl⟩ | ⟨y, hy, hl⟩
    · obtain ⟨h1, h2⟩ := hr u hu x w he
      by_cases hx : st.status x = .scanned
      · exact .inl ⟨hx, by linarith⟩
      · refine .inr ⟨x, (h.heapStatus x).mpr (.inl ?_), by linarith⟩
        cases hs : st.status x with
        | scanned => exact absurd hs hx
        | notInHeap => exact absurd hs h1
        | inHeap => rfl
    · exact .inr ⟨y, hy, by linarith⟩

/-- Scanned nodes have their shortest distance. -/
theorem scanned_opt {n s t : ℕ} {st : St} (hok : Ok G n) (h : Inv (G := G) n s t st)
    (hr : Relaxed G (fun u => st.status u = .scanned) st) {x : ℕ} (hx : st.status x = .scanned) {L : ℝ} {l : List ℕ}
    (hw : Walk G s x L l) : st.val x ≤ L := by
  rcases walk_dichotomy hok h hr hw with ⟨_, h1⟩ | ⟨y, hy, h1⟩
  · exact h1
  · exact (h.mono x y hx hy).trans h1

/-- `_calculate_path` only looks at the predecessors along the path. -/
theorem calcPath_congr {pred pred' : ℕ → Option ℕ} {s : ℕ} : ∀ (fuel x : ℕ) (l : List ℕ),
    calcPath pred s fuel x = some l → (∀ y ∈ l, pred' y = pred y) → calcPath pred' s fuel x = some l := by
  intro fuel
  induction fuel with
  | zero => intro x l h; cases h
  | succ fuel ih =>
    intro x l h hp
    unfold calcPath at h ⊢
    by_cases hx : x = s
    · simpa [hx] using h
    · simp only [hx, if_false] at h ⊢
      cases hpx : pred x with
      | none => rw [hpx] at h; cases h
      | some p =>
        rw [hpx] at h
        obtain ⟨l', h1, rfl⟩ := Option.map_eq_some_iff.mp h
        rw [hp x (by simp), hpx]
        simp only
        rw [ih p l' h1 (fun y hy => hp y (by simp [hy]))]
        rfl

/-- Popping the minimal node. -/
theorem inv_pop {n s t : ℕ} {st : St} (h : Inv (G := G) n s t st)
    {v : ℕ} (hv : v ∈ st.heap) (hmin : ∀ x ∈ st.heap, st.val v ≤ st.val x) (hvt : v ≠ t) :
    Inv (G := G) n s t (pop v st) ∧ (∀ x ∈ (pop v st).heap, (pop v st).status x = .inHeap) ∧
    (pop v st).status s = .scanned := by
  have hvs : st.status v ≠ .scanned := by
    rcases (h.heapStatus v).mp hv with h1 | ⟨rfl, h1⟩ <;> rw [h1] <;> exact fun e => by cases e
  -- the first iteration pops the source
  have hfirst : st.status s = .notInHeap → v = s := by
    intro hs
    rcases (h.heapStatus v).mp hv with h1 | ⟨h1, _⟩
    · rcases h.src.2.2 with h2 | ⟨_, h2⟩
      · rw [h2] at hs; cases hs
      · rw [h2 v] at h1; cases h1
    · exact h1
  have hstat : ∀ x, (pop v st).status x = if x = v then .scanned else st.status x := by
    intro x; simp [pop, Function.update_apply]
  have hmem : ∀ x, x ∈ (pop v st).heap ↔ x ≠ v ∧ x ∈ st.heap := by
    intro x; simp only [pop]; exact h.nodup.mem_erase_iff
  have hssc : (pop v st).status s = .scanned := by
    rw [hstat]
    rcases h.src.2.2 with h2 | ⟨h2, _⟩
    · rw [h2]; simp
    · rw [hfirst h2]; simp
  refine ⟨?_, ?_, hssc⟩
  · constructor
    · intro x
      rw [hmem, hssc, hstat]
      simp only [reduceCtorEq, and_false, or_false]
      by_cases hxv : x = v
      · simp [hxv]
      · simp only [hxv, if_false, ne_eq, not_false_eq_true, true_and, h.heapStatus]
        constructor
        · rintro (h1 | ⟨rfl, h1⟩)
          · exact h1
          · exact absurd (hfirst h1).symm hxv
        · exact .inl
    · exact h.nodup.erase v
    · intro x hx
      rw [hmem, hstat] at hx
      by_cases hxv : x = v
      · rw [hxv]; exact h.lt v (.inl hv)
      · simp only [hxv, if_false] at hx
        exact h.lt x (hx.imp (·.2) id)
    · exact ⟨h.src.1, h.src.2.1, .inl hssc⟩
    · intro x hx
      rw [hstat] at hx
      by_cases hxv : x = v
      · subst hxv
        show ∃ l, Walk G s x (st.val x) l ∧ l.Nodup ∧ (∀ y ∈ l, (pop x st).status y = .scanned) ∧
          ∀ fuel, l.length ≤ fuel → calcPath st.pred s fuel x = some l
        rcases (h.heapStatus x).mp hv with h1 | ⟨rfl, h1⟩
        · obtain ⟨p, w, e1, e2, e3, e4⟩ := h.front x h1
          obtain ⟨l, p1, p2, p3, p4⟩ := h.path p e2
          refine ⟨x :: l, by rw [e4]; exact .snoc p1 e3, ?_, ?_, ?_⟩
          · rw [List.nodup_cons]
            exact ⟨fun hm => hvs (p3 x hm), p2⟩
          · intro y hy
            rw [hstat]
            by_cases hyx : y = x
            · simp [hyx]
            · simp only [List.mem_cons, hyx, false_or] at hy
              simp [hyx, p3 y hy]
          · intro fuel hf
            cases fuel with
            | zero => simp at hf
            | succ fuel =>
              have hxs : x ≠ s := by
                rintro rfl
                rcases h.src.2.2 with h2 | ⟨h2, _⟩ <;> rw [h2] at h1 <;> cases h1
              simp only [calcPath, hxs, if_false, e1]
              rw [p4 fuel (by simpa using hf)]
              rfl
        · refine ⟨[x], by rw [h.src.1]; exact .nil, by simp, by simp [hstat], ?_⟩
          intro fuel hf
          cases fuel with
          | zero => simp at hf
          | succ fuel => simp [calcPath]
      · simp only [hxv, if_false] at hx
        obtain ⟨l, p1, p2, p3, p4⟩ := h.path x hx
        refine ⟨l, p1, p2, ?_, p4⟩
        intro y hy
        rw [hstat, p3 y hy]; simp
    · intro x hx
      rw [hstat] at hx
      by_cases hxv : x = v
      · simp [hxv] at hx
      · simp only [hxv, if_false] at hx
        obtain ⟨p, w, e1, e2, e3, e4⟩ := h.front x hx
        exact ⟨p, w, e1, by rw [hstat, e2]; simp, e3, e4⟩
    · intro x y hx hy
      rw [hstat] at hx
      rw [hmem] at hy
      show st.val x ≤ st.val y
      by_cases hxv : x = v
      · rw [hxv]; exact hmin y hy.2
      · simp only [hxv, if_false] at hx
        exact h.mono x y hx hy.2
    · intro x hx
      rw [hstat] at hx
      by_cases hxv : x = v
      · simp [hxv] at hx
      · simp only [hxv, if_false] at hx
        exact h.predNone x hx
    · rw [hstat]; simp only [Ne.symm hvt, if_false]; exact h.target
  · intro x hx
    rw [hmem] at hx
    rw [hstat]
    simp only [hx.1, if_false]
    rcases (h.heapStatus x).mp hx.2 with h1 | ⟨rfl, h1⟩
    · exact h1
    · exact absurd (hfirst h1).symm hx.1

/-- One edge. -/
theorem inv_relax {n s t v : ℕ} {st : St} (hok : Ok G n) (h : Inv (G := G) n s t st)
    (hs : st.status s = .scanned) (hv : st.status v = .scanned) (hmax : ∀ x, st.status x = .scanned → st.val x ≤ st.val v)
    (e : ℕ × WithTop ℝ) (he : e ∈ G v) :
    Inv (G := G) n s t (relax v st e) ∧ (∀ x, (relax v st e).status x = .scanned ↔ st.status x = .scanned) ∧
    (∀ x, st.status x = .scanned → (relax v st e).val x = st.val x) ∧
    (∀ x, st.status x ≠ .notInHeap → (relax v st e).status x ≠ .notInHeap ∧ (relax v st e).val x ≤ st.val x) ∧
    (∀ w : ℝ, e.2 = w → (relax v st e).status e.1 ≠ .notInHeap ∧ (relax v st e).val e.1 ≤ st.val v + w) := by
  obtain ⟨y, ew⟩ := e
  cases ew with
  | top =>
    refine ⟨h, fun _ => Iff.rfl, fun _ _ => rfl, fun x hx => ⟨hx, le_refl _⟩, ?_⟩
    intro w hw; cases hw
  | coe w =>
    have hw0 : (0 : ℝ) ≤ w := by
      have := hok.nonneg v _ he
      exact WithTop.coe_le_coe.mp (show ((0 : ℝ) : WithTop ℝ) ≤ (w : WithTop ℝ) from this)
    have hylt : y < n := hok.lt v _ he
    by_cases hys : st.status y = .scanned
    · have hE : relax v st (y, (w : WithTop ℝ)) = st := by simp [relax, hys]
      rw [hE]
      refine ⟨h, fun _ => Iff.rfl, fun _ _ => rfl, fun x hx => ⟨hx, le_refl _⟩, ?_⟩
      intro w' hw'
      obtain rfl := WithTop.coe_injective hw'
      refine ⟨by simp [hys], ?_⟩
      have := hmax y hys
      show st.val y ≤ _
      linarith
    · have hyv : y ≠ v := by rintro rfl; exact hys hv
      have hysrc : y ≠ s := by rintro rfl; exact hys hs
      have hnotsrc : ¬ (st.status s = .notInHeap) := by rw [hs]; exact fun e => by cases e
      by_cases hyn : st.status y = .notInHeap
      · have hE : relax v st (y, (w : WithTop ℝ)) =
            { status := Function.update st.status y .inHeap
              val := Function.update st.val y (st.val v + w)
              pred := Function.update st.pred y (some v)
              heap := st.heap ++ [y] } := by simp [relax, hyn]
        have hynh : y ∉ st.heap := by
          rw [h.heapStatus, hyn]
          rintro (h1 | ⟨_, h1⟩)
          · cases h1
          · exact hnotsrc h1
        rw [hE]
        have hst : ∀ x, Function.update st.status y .inHeap x = .scanned ↔ st.status x = .scanned := by
          intro x
          by_cases hx : x = y
          · subst hx; simp [hyn]
          · simp [Function.update_of_ne hx]
        have hval : ∀ x, x ≠ y → Function.update st.val y (st.val v + w) x = st.val x := fun x hx =>
          Function.update_of_ne hx _ _
        have hscy : ∀ x, st.status x = .scanned → x ≠ y := by rintro x hx rfl; exact hys hx
        refine ⟨?_, hst, fun x hx => hval x (hscy x hx), ?_, ?_⟩
        · constructor
          · intro x
            simp only [List.mem_append, List.mem_singleton, h.heapStatus]
            by_cases hx : x = y
            · subst hx; simp
            · simp only [hx, or_false, Function.update_of_ne hx]
              rw [show Function.update st.status y .inHeap s = st.status s from Function.update_of_ne (Ne.symm hysrc) _ _]
          · rw [List.nodup_append]
            refine ⟨h.nodup, by simp, ?_⟩
            intro a ha b hb
            simp only [List.mem_singleton] at hb
            rintro rfl; exact hynh (hb ▸ ha)
          · intro x hx
            simp only [List.mem_append, List.mem_singleton, hst] at hx
            rcases hx with (hx | rfl) | hx
            · exact h.lt x (.inl hx)
            · exact hylt
            · exact h.lt x (.inr hx)
          · refine ⟨?_, ?_, .inl ?_⟩
            · show Function.update st.val y _ s = 0
              rw [hval s (Ne.symm hysrc)]; exact h.src.1
            · show Function.update st.pred y _ s = none
              rw [Function.update_of_ne (Ne.symm hysrc)]; exact h.src.2.1
            · show Function.update st.status y _ s = _
              rw [hst]; exact hs
          · intro x hx
            have hx' := (hst x).mp hx
            obtain ⟨l, p1, p2, p3, p4⟩ := h.path x hx'
            refine ⟨l, ?_, p2, fun z hz => (hst z).mpr (p3 z hz), ?_⟩
            · show Walk G s x (Function.update st.val y _ x) l
              rw [hval x (hscy x hx')]; exact p1
            · intro fuel hf
              apply calcPath_congr _ _ _ (p4 fuel hf)
              intro z hz
              exact Function.update_of_ne (hscy z (p3 z hz)) _ _
          · intro x hx
            by_cases hxy : x = y
            · subst hxy
              refine ⟨v, w, by simp, (hst v).mpr hv, he, ?_⟩
              show Function.update st.val x _ x = Function.update st.val x _ v + w
              rw [Function.update_self, hval v (Ne.symm hyv)]
            · have hx' : st.status x = .inHeap := by
                have := hx; simpa [Function.update_of_ne hxy] using this
              obtain ⟨p, w', e1, e2, e3, e4⟩ := h.front x hx'
              refine ⟨p, w', by show Function.update st.pred y _ x = _; rw [Function.update_of_ne hxy]; exact e1, (hst p).mpr e2, e3, ?_⟩
              show Function.update st.val y _ x = Function.update st.val y _ p + w'
              rw [hval x hxy, hval p (hscy p e2)]; exact e4
          · intro x z hx hz
            have hx' := (hst x).mp hx
            show Function.update st.val y _ x ≤ Function.update st.val y _ z
            rw [hval x (hscy x hx')]
            by_cases hzy : z = y
            · subst hzy
              rw [Function.update_self]
              have := hmax x hx'
              linarith
            · rw [hval z hzy]
              have hz' : z ∈ st.heap := by
                have := hz
                simp only [List.mem_append, List.mem_singleton, hzy, or_false] at this
                exact this
              exact h.mono x z hx' hz'
          · intro x hx
            by_cases hxy : x = y
            · subst hxy; simp at hx
            · show Function.update st.pred y _ x = none
              rw [Function.update_of_ne hxy]
              apply h.predNone
              simpa [Function.update_of_ne hxy] using hx
          · show Function.update st.status y _ t ≠ _
            rw [Ne, hst]; exact h.target
        · intro x hx
          have hxy : x ≠ y := by rintro rfl; exact hx hyn
          refine ⟨?_, ?_⟩
          · show Function.update st.status y _ x ≠ _
            rw [Function.update_of_ne hxy]; exact hx
          · show Function.update st.val y _ x ≤ _
            rw [hval x hxy]
        · intro w' hw'
          obtain rfl := WithTop.coe_injective hw'
          refine ⟨?_, ?_⟩
          · show Function.update st.status y _ y ≠ _
            rw [Function.update_self]; exact fun e => by cases e
          · show Function.update st.val y _ y ≤ _
            rw [Function.update_self]
      · have hyi : st.status y = .inHeap := by
          cases hc : st.status y with
          | scanned => exact absurd hc hys
          | notInHeap => exact absurd hc hyn
          | inHeap => rfl
        by_cases hlt : st.val y > st.val v + w
        · have hE : relax v st (y, (w : WithTop ℝ)) =
              { st with
                val := Function.update st.val y (st.val v + w)
                pred := Function.update st.pred y (some v) } := by simp [relax, hyi, hlt]
          rw [hE]
          have hval : ∀ x, x ≠ y → Function.update st.val y (st.val v + w) x = st.val x := fun x hx =>
            Function.update_of_ne hx _ _
          have hscy : ∀ x, st.status x = .scanned → x ≠ y := by rintro x hx rfl; exact hys hx
          refine ⟨?_, fun _ => Iff.rfl, fun x hx => hval x (hscy x hx), ?_, ?_⟩
          · constructor
            · exact h.heapStatus
            · exact h.nodup
            · exact h.lt
            · refine ⟨?_, ?_, .inl hs⟩
              · show Function.update st.val y _ s = 0
                rw [hval s (Ne.symm hysrc)]; exact h.src.1
              · show Function.update st.pred y _ s = none
                rw [Function.update_of_ne (Ne.symm hysrc)]; exact h.src.2.1
            · intro x hx'
              obtain ⟨l, p1, p2, p3, p4⟩ := h.path x hx'
              refine ⟨l, ?_, p2, p3, ?_⟩
              · show Walk G s x (Function.update st.val y _ x) l
                rw [hval x (hscy x hx')]; exact p1
              · intro fuel hf
                apply calcPath_congr _ _ _ (p4 fuel hf)
                intro z hz
                exact Function.update_of_ne (hscy z (p3 z hz)) _ _
            · intro x hx
              by_cases hxy : x = y
              · subst hxy
                refine ⟨v, w, by simp, hv, he, ?_⟩
                show Function.update st.val x _ x = Function.update st.val x _ v + w
                rw [Function.update_self, hval v (Ne.symm hyv)]
              · obtain ⟨p, w', e1, e2, e3, e4⟩ := h.front x hx
                refine ⟨p, w', by show Function.update st.pred y _ x = _; rw [Function.update_of_ne hxy]; exact e1, e2, e3, ?_⟩
                show Function.update st.val y _ x = Function.update st.val y _ p + w'
                rw [hval x hxy, hval p (hscy p e2)]; exact e4
            · intro x z hx' hz
              show Function.update st.val y _ x ≤ Function.update st.val y _ z
              rw [hval x (hscy x hx')]
              by_cases hzy : z = y
              · subst hzy
                rw [Function.update_self]
                have := hmax x hx'
                linarith
              · rw [hval z hzy]
                exact h.mono x z hx' hz
            · intro x hx
              have hxy : x ≠ y := by rintro rfl; exact hyn hx
              show Function.update st.pred y _ x = none
              rw [Function.update_of_ne hxy]
              exact h.predNone x hx
            · exact h.target
          · intro x hx
            refine ⟨hx, ?_⟩
            show Function.update st.val y _ x ≤ _
            by_cases hxy : x = y
            · subst hxy; rw [Function.update_self]; exact hlt.le
            · rw [hval x hxy]
          · intro w' hw'
            obtain rfl := WithTop.coe_injective hw'
            refine ⟨hyn, ?_⟩
            show Function.update st.val y _ y ≤ _
            rw [Function.update_self]
        · have hE : relax v st (y, (w : WithTop ℝ)) = st := by simp [relax, hyi, hlt]
          rw [hE]
          refine ⟨h, fun _ => Iff.rfl, fun _ _ => rfl, fun x hx => ⟨hx, le_refl _⟩, ?_⟩
          intro w' hw'
          obtain rfl := WithTop.coe_injective hw'
          exact ⟨hyn, not_lt.mp hlt⟩

/-- All edges of a row. -/
theorem inv_row {n s t v : ℕ} (hok : Ok G n) : ∀ (es : List (ℕ × WithTop ℝ)) (st : St), (∀ e ∈ es, e ∈ G v) →
    Inv (G := G) n s t st → st.status s = .scanned → st.status v = .scanned →
    (∀ x, st.status x = .scanned → st.val x ≤ st.val v) →
    Inv (G := G) n s t (es.foldl (relax v) st) ∧
    (∀ x, (es.foldl (relax v) st).status x = .scanned ↔ st.status x = .scanned) ∧
    (∀ x, st.status x = .scanned → (es.foldl (relax v) st).val x = st.val x) ∧
    (∀ x, st.status x ≠ .notInHeap → (es.foldl (relax v) st).status x ≠ .notInHeap ∧
      (es.foldl (relax v) st).val x ≤ st.val x) ∧
    (∀ y w, (y, ((w : ℝ) : WithTop ℝ)) ∈ es → (es.foldl (relax v) st).status y ≠ .notInHeap ∧
      (es.foldl (relax v) st).val y ≤ st.val v + w) := by
  intro es
  induction es with
  | nil =>
    intro st _ h hs hv hmax
    exact ⟨h, fun _ => Iff.rfl, fun _ _ => rfl, fun x hx => ⟨hx, le_refl _⟩, by simp⟩
  | cons e es ih =>
    intro st hes h hs hv hmax
    obtain ⟨a1, a2, a3, a4, a5⟩ := inv_relax hok h hs hv hmax e (hes e (by simp))
    have hv' : (relax v st e).val v = st.val v := a3 v hv
    obtain ⟨b1, b2, b3, b4, b5⟩ := ih (relax v st e) (fun e' he' => hes e' (by simp [he'])) a1
      ((a2 s).mpr hs) ((a2 v).mpr hv) (by
        intro x hx
        rw [a2] at hx
        rw [a3 x hx, hv']; exact hmax x hx)
    rw [List.foldl_cons]
    refine ⟨b1, fun x => (b2 x).trans (a2 x), fun x hx => (b3 x ((a2 x).mpr hx)).trans (a3 x hx), ?_, ?_⟩
    · intro x hx
      obtain ⟨c1, c2⟩ := a4 x hx
      obtain ⟨d1, d2⟩ := b4 x c1
      exact ⟨d1, d2.trans c2⟩
    · intro y w hm
      rw [List.mem_cons] at hm
      rcases hm with rfl | hm
      · obtain ⟨c1, c2⟩ := a5 w rfl
        obtain ⟨d1, d2⟩ := b4 y c1
        exact ⟨d1, d2.trans c2⟩
      · obtain ⟨d1, d2⟩ := b5 y w hm
        rw [hv'] at d2
        exact ⟨d1, d2⟩

theorem inv_init {n s t : ℕ} (hs : s < n) : Inv (G := G) n s t (init s) := by
  constructor
  · intro x; simp [init]
  · simp [init]
  · intro x hx; simp [init] at hx; rw [hx]; exact hs
  · exact ⟨rfl, rfl, .inr ⟨rfl, fun _ => rfl⟩⟩
  · intro x hx; simp [init] at hx
  · intro x hx; simp [init] at hx
  · intro x y hx; simp [init] at hx
  · intro x _; rfl
  · simp [init]

/-- Number of nodes that are still to be scanned. -/
noncomputable def todo (n : ℕ) (st : St) : ℕ := ((Finset.range n).filter fun x => st.status x ≠ .scanned).card

/-- What the loop returns. -/
theorem loop_spec {n s t : ℕ} (hok : Ok G n) (hp : MinPick pick) : ∀ (fuel : ℕ) (st : St),
    Inv (G := G) n s t st → Relaxed G (fun u => st.status u = .scanned) st → todo n st < fuel →
    (∃ st', loop G pick t fuel st = some (st', none) ∧ Inv (G := G) n s t st' ∧ st'.heap = [] ∧
      Relaxed G (fun u => st'.status u = .scanned) st') ∨
    (∃ st' l, loop G pick t fuel st = some (st', some (st'.val t)) ∧ Walk G s t (st'.val t) l ∧ l.Nodup ∧
      (∀ x ∈ l, x < n) ∧ (∀ fuel, l.length ≤ fuel → calcPath st'.pred s fuel t = some l) ∧
      ∀ L l, Walk G s t L l → st'.val t ≤ L) := by
  intro fuel
  induction fuel with
  | zero => intro st _ _ h; omega
  | succ fuel ih =>
    intro st h hr hf
    by_cases he : st.heap = []
    · left
      exact ⟨st, by simp [loop, he], h, he, hr⟩
    · obtain ⟨hv, hmin⟩ := hp st.heap st.val he
      have hE : loop G pick t (fuel + 1) st =
          if pick st.heap st.val = t then
            some (pop (pick st.heap st.val) st, some ((pop (pick st.heap st.val) st).val (pick st.heap st.val)))
          else loop G pick t fuel ((G (pick st.heap st.val)).foldl (relax (pick st.heap st.val)) (pop (pick st.heap st.val) st)) := by
        rw [loop]
        split
        · rename_i h'; exact absurd h' he
        · rfl
      rw [hE]
      generalize pick st.heap st.val = v at hv hmin
      by_cases hvt : v = t
      · subst hvt
        right
        rw [if_pos rfl]
        -- use the invariant with a target that is not popped
        obtain ⟨t', ht'⟩ : ∃ t', t' ∉ Finset.range n ∧ t' ≠ v := ⟨n + v + 1, by simp; omega, by omega⟩
        have hInv' : Inv (G := G) n s t' st := by
          refine ⟨h.heapStatus, h.nodup, h.lt, h.src, h.path, h.front, h.mono, h.predNone, ?_⟩
          intro hc
          exact ht'.1 (Finset.mem_range.mpr (h.lt t' (.inr hc)))
        obtain ⟨i1, _, _⟩ := inv_pop hInv' hv hmin (Ne.symm ht'.2)
        have hsc : (pop v st).status v = .scanned := by simp [pop]
        obtain ⟨l, p1, p2, p3, p4⟩ := i1.path v hsc
        refine ⟨pop v st, l, rfl, p1, p2, fun x hx => i1.lt x (.inr (p3 x hx)), p4, ?_⟩
        intro L l' hw
        show st.val v ≤ L
        rcases walk_dichotomy hok h hr hw with ⟨h1, h2⟩ | ⟨y, hy, h2⟩
        · exact h2
        · exact (hmin y hy).trans h2
      · rw [if_neg hvt]
        obtain ⟨i1, i2, i3⟩ := inv_pop h hv hmin hvt
        have hstat : ∀ x, (pop v st).status x = if x = v then .scanned else st.status x := by
          intro x; simp [pop, Function.update_apply]
        have hsv : (pop v st).status v = .scanned := by simp [pop]
        have hmax : ∀ x, (pop v st).status x = .scanned → (pop v st).val x ≤ (pop v st).val v := by
          intro x hx
          show st.val x ≤ st.val v
          rw [hstat] at hx
          by_cases hxv : x = v
          · rw [hxv]
          · simp only [hxv, if_false] at hx
            exact h.mono x v hx hv
        obtain ⟨b1, b2, b3, b4, b5⟩ := inv_row hok (G v) (pop v st) (fun e he => he) i1 i3 hsv hmax
        apply ih _ b1
        · intro u hu y w hm
          rw [b2] at hu
          rw [b3 u hu]
          by_cases huv : u = v
          · subst huv; exact b5 y w hm
          · have hu' : st.status u = .scanned := by
              rw [hstat] at hu; simpa [huv] using hu
            obtain ⟨c1, c2⟩ := hr u hu' y w hm
            have c1' : (pop v st).status y ≠ .notInHeap := by
              rw [hstat]
              by_cases hyv : y = v
              · simp [hyv]
              · simpa [hyv] using c1
            obtain ⟨d1, d2⟩ := b4 y c1'
            exact ⟨d1, d2.trans c2⟩
        · have hvn : v < n := h.lt v (.inl hv)
          have hvs : st.status v ≠ .scanned := by
            rcases (h.heapStatus v).mp hv with h1 | ⟨rfl, h1⟩ <;> rw [h1] <;> exact fun e => by cases e
          have : todo n ((G v).foldl (relax v) (pop v st)) < todo n st := by
            unfold todo
            apply Finset.card_lt_card
            rw [Finset.ssubset_iff_of_subset]
            · refine ⟨v, by simp [hvn, hvs], ?_⟩
              simp only [Finset.mem_filter, not_and, not_not]
              intro _; exact (b2 v).mpr hsv
            · intro x hx
              simp only [Finset.mem_filter, ne_eq] at hx ⊢
              refine ⟨hx.1, fun hc => hx.2 ((b2 x).mpr ?_)⟩
              rw [hstat, hc]; simp
          omega

theorem nodup_length_le {l : List ℕ} {n : ℕ} (h : l.Nodup) (hl : ∀ x ∈ l, x < n) : l.length ≤ n := by
  have := Finset.card_le_card (s := l.toFinset) (t := Finset.range n) (by
    intro x hx; simp at hx ⊢; exact hl x hx)
  rw [List.toFinset_card_of_nodup h, Finset.card_range] at this
  exact this

theorem init_ready {n s : ℕ} : Relaxed G (fun u => (init s).status u = .scanned) (init s) ∧
    todo n (init s) < n + 1 := by
  constructor
  · intro u hu; simp [init] at hu
  · unfold todo
    calc _ ≤ (Finset.range n).card := Finset.card_filter_le _ _
      _ = n := Finset.card_range n
      _ < n + 1 := Nat.lt_succ_self n

/-- C63: for every source and target and any tie-breaking of the heap, a shortest path is found iff there is
a path at all: the returned nodes (from the target back to the source) form a path along edges of finite
weight without repeated nodes, whose length is the returned one, and no walk is shorter. -/
theorem C63_dijkstra {n s t : ℕ} (hok : Ok G n) (hp : MinPick pick) (hs : s < n) :
    ((∃ L l, Walk G s t L l) → ∃ path len, dijkstraOne G pick n s t = some (path, len) ∧
      Walk G s t len path ∧ path.Nodup ∧ ∀ L l, Walk G s t L l → len ≤ L) ∧
    ((¬ ∃ L l, Walk G s t L l) → dijkstraOne G pick n s t = none) := by
  obtain ⟨r1, r2⟩ := init_ready (G := G) (n := n) (s := s)
  rcases loop_spec (G := G) (pick := pick) (t := t) hok hp (n + 1) (init s) (inv_init hs) r1 r2 with
    ⟨st', e, h, hemp, hr⟩ | ⟨st', l, e, hw, hn, hlt, hc, hopt⟩
  · have hnone : dijkstraOne G pick n s t = none := by simp [dijkstraOne, e]
    refine ⟨?_, fun _ => hnone⟩
    rintro ⟨L, l, hw⟩
    exfalso
    rcases walk_dichotomy hok h hr hw with ⟨h1, _⟩ | ⟨y, hy, _⟩
    · exact h.target h1
    · rw [hemp] at hy; simp at hy
  · refine ⟨fun _ => ⟨l, st'.val t, ?_, hw, hn, hopt⟩, fun hno => absurd ⟨_, _, hw⟩ hno⟩
    simp [dijkstraOne, e, hc (n + 1) ((nodup_length_le hn hlt).trans (Nat.le_succ n))]

/-- C63, the outer loop: if every target is reachable, the i-th path and length belong to the i-th link. -/
theorem C63_links {n : ℕ} (hok : Ok G n) (hp : MinPick pick) (links : List (ℕ × ℕ))
    (h : ∀ q ∈ links, q.1 < n ∧ ∃ L l, Walk G q.1 q.2 L l) :
    (dijkstraPaths G pick n links).1.length = links.length ∧
    (dijkstraPaths G pick n links).2.length = links.length ∧
    ∀ i (hi : i < links.length), ∃ path len, (dijkstraPaths G pick n links).1[i]? = some path ∧
      (dijkstraPaths G pick n links).2[i]? = some len ∧ Walk G links[i].1 links[i].2 len path ∧
      ∀ L l, Walk G links[i].1 links[i].2 L l → len ≤ L := by
  induction links with
  | nil => simp [dijkstraPaths]
  | cons q links ih =>
    obtain ⟨hq, hex⟩ := h q (by simp)
    obtain ⟨path, len, e, hw, _, hopt⟩ := (C63_dijkstra (t := q.2) hok hp hq).1 hex
    obtain ⟨i1, i2, i3⟩ := ih (fun q' hq' => h q' (by simp [hq']))
    have e1 : (dijkstraPaths G pick n (q :: links)).1 = path :: (dijkstraPaths G pick n links).1 := by
      simp [dijkstraPaths, e]
    have e2 : (dijkstraPaths G pick n (q :: links)).2 = len :: (dijkstraPaths G pick n links).2 := by
      simp [dijkstraPaths, e]
    rw [e1, e2]
    refine ⟨by simp [i1], by simp [i2], ?_⟩
    intro i hi
    cases i with
    | zero => exact ⟨path, len, by simp, by simp, hw, hopt⟩
    | succ i =>
      obtain ⟨p, l', a1, a2, a3, a4⟩ := i3 i (by simpa using hi)
      exact ⟨p, l', by simpa using a1, by simpa using a2, by simpa using a3, by simpa using a4⟩

/-- C63, `return_predecessors` with a target outside of the graph: every reachable node except the source has
a predecessor, through an edge of finite weight, on a shortest path; unreachable nodes and the source have
none. -/
theorem C63_predecessors {n s t : ℕ} (hok : Ok G n) (hp : MinPick pick) (hs : s < n) (ht : n ≤ t) :
    ∃ pred, dijkstraPred G pick n s t = some pred ∧ pred s = none ∧
      (∀ x, (∃ L l, Walk G s x L l) → ∃ len l, Walk G s x len l ∧ l.Nodup ∧ (∀ L l, Walk G s x L l → len ≤ L) ∧
        ∀ fuel, l.length ≤ fuel → calcPath pred s fuel x = some l) ∧
      (∀ x, x ≠ s → ((∃ L l, Walk G s x L l) ↔ ∃ p, pred x = some p)) ∧
      (∀ x p, pred x = some p → ∃ w : ℝ, (x, (w : WithTop ℝ)) ∈ G p ∧ ∃ L l, Walk G s p L l) := by
  obtain ⟨r1, r2⟩ := init_ready (G := G) (n := n) (s := s)
  rcases loop_spec (G := G) (pick := pick) (t := t) hok hp (n + 1) (init s) (inv_init hs) r1 r2 with
    ⟨st', e, h, hemp, hr⟩ | ⟨st', l, e, hw, hn, hlt, hc, hopt⟩
  · have hsc : ∀ x, (∃ L l, Walk G s x L l) ↔ st'.status x = .scanned := by
      intro x
      constructor
      · rintro ⟨L, l, hw⟩
        rcases walk_dichotomy hok h hr hw with ⟨h1, _⟩ | ⟨y, hy, _⟩
        · exact h1
        · rw [hemp] at hy; simp at hy
      · intro hx
        obtain ⟨l, p1, _⟩ := h.path x hx
        exact ⟨_, l, p1⟩
    have hstat : ∀ x, st'.status x = .scanned ∨ st'.status x = .notInHeap := by
      intro x
      cases hx : st'.status x with
      | scanned => exact .inl rfl
      | notInHeap => exact .inr rfl
      | inHeap =>
        have := (h.heapStatus x).mpr (.inl hx)
        rw [hemp] at this; simp at this
    have hpr : ∀ x, x ≠ s → st'.status x = .scanned → ∀ l, calcPath st'.pred s l.length x = some l →
        ∃ q, st'.pred x = some q := by
      intro x hx _ l hl
      cases hlen : l.length with
      | zero => rw [hlen] at hl; cases hl
      | succ k =>
        rw [hlen] at hl
        simp only [calcPath, hx, if_false] at hl
        cases hq : st'.pred x with
        | none => rw [hq] at hl; cases hl
        | some q => exact ⟨q, rfl⟩
    refine ⟨st'.pred, by simp [dijkstraPred, e], h.src.2.1, ?_, ?_, ?_⟩
    · intro x hx
      obtain ⟨l, p1, p2, p3, p4⟩ := h.path x ((hsc x).mp hx)
      exact ⟨_, l, p1, p2, fun L l' hw => scanned_opt hok h hr ((hsc x).mp hx) hw, p4⟩
    · intro x hx
      rw [hsc]
      constructor
      · intro hx'
        obtain ⟨l, p1, p2, p3, p4⟩ := h.path x hx'
        exact hpr x hx hx' l (p4 _ (le_refl _))
      · rintro ⟨p, hpx⟩
        rcases hstat x with h1 | h1
        · exact h1
        · rw [h.predNone x h1] at hpx; cases hpx
    · intro x p hpx
      have hxs : x ≠ s := by rintro rfl; rw [h.src.2.1] at hpx; cases hpx
      have hx' : st'.status x = .scanned := by
        rcases hstat x with h1 | h1
        · exact h1
        · rw [h.predNone x h1] at hpx; cases hpx
      obtain ⟨l, p1, p2, p3, p4⟩ := h.path x hx'
      have hl := p4 _ (le_refl _)
      clear p2 p3 p4
      obtain ⟨vx, p1⟩ : ∃ vx, Walk G s x vx l := ⟨_, p1⟩
      cases p1 with
      | nil => exact absurd rfl hxs
      | @snoc u _ L w l' hw he =>
        simp only [List.length_cons, calcPath, hxs, if_false, hpx] at hl
        obtain ⟨l2, h1, h2⟩ := Option.map_eq_some_iff.mp hl
        obtain rfl := (List.cons.inj h2).2
        -- the path of `p` starts with `p`, the walk to `u` starts with `u`
        have hu : ∃ l3, l2 = u :: l3 := by
          cases hw with
          | nil => exact ⟨_, rfl⟩
          | snoc _ _ => exact ⟨_, rfl⟩
        have hpp : ∃ l3, l2 = p :: l3 := by
          cases hlen : l2.length with
          | zero => rw [hlen] at h1; cases h1
          | succ k =>
            rw [hlen] at h1
            unfold calcPath at h1
            by_cases hps : p = s
            · simp only [hps, if_true, Option.some.injEq] at h1
              exact ⟨[], by rw [← h1, hps]⟩
            · simp only [hps, if_false] at h1
              cases hq : st'.pred p with
              | none => rw [hq] at h1; cases h1
              | some q =>
                rw [hq] at h1
                obtain ⟨l4, _, h4⟩ := Option.map_eq_some_iff.mp h1
                exact ⟨l4, h4.symm⟩
        obtain ⟨_, e1⟩ := hu
        obtain ⟨_, e2⟩ := hpp
        rw [e1] at e2
        obtain rfl := (List.cons.inj e2).1
        exact ⟨w, he, L, l2, hw⟩
  · exfalso
    obtain ⟨vt, hw⟩ : ∃ vt, Walk G s t vt l := ⟨_, hw⟩
    have : t ∈ l := by
      cases hw with
      | nil => simp
      | snoc _ _ => simp
    have := hlt t this
    omega

/-- Disagreement: a link whose target cannot be reached gets length 0, and its path is left out, so that the
following paths are shifted. -/
theorem C63_unreachable {n s t : ℕ} (hok : Ok G n) (hp : MinPick pick) (hs : s < n)
    (h : ¬ ∃ L l, Walk G s t L l) : dijkstraPaths G pick n [(s, t)] = ([], [0]) := by
  simp [dijkstraPaths, (C63_dijkstra (t := t) hok hp hs).2 h]

/-! ## The hypotheses are met -/

/-- Take the first minimal node. -/
noncomputable def firstMin (h : List ℕ) (val : ℕ → ℝ) : ℕ :=
  match h with
  | [] => 0
  | x :: l => l.foldl (fun a b => if val b < val a then b else a) x

theorem firstMin_spec : MinPick firstMin := by
  intro h val hne
  cases h with
  | nil => exact absurd rfl hne
  | cons x l =>
    unfold firstMin
    simp only
    clear hne
    induction l generalizing x with
    | nil => simp
    | cons y l ih =>
      rw [List.foldl_cons]
      by_cases hy : val y < val x
      · rw [if_pos hy]
        obtain ⟨h1, h2⟩ := ih y
        refine ⟨by simp only [List.mem_cons] at h1 ⊢; tauto, ?_⟩
        intro z hz
        simp only [List.mem_cons] at hz h2
        rcases hz with rfl | hz
        · exact (h2 y (.inl rfl)).trans hy.le
        · exact h2 z hz
      · rw [if_neg hy]
        obtain ⟨h1, h2⟩ := ih x
        refine ⟨by simp only [List.mem_cons] at h1 ⊢; tauto, ?_⟩
        intro z hz
        simp only [List.mem_cons] at hz h2
        rcases hz with rfl | rfl | hz
        · exact h2 z (.inl rfl)
        · exact (h2 x (.inl rfl)).trans (not_lt.mp hy)
        · exact h2 z (.inr hz)

/-- A square with a diagonal; one edge is missing (infinite). -/
noncomputable def square : Csr := fun u =>
  match u with
  | 0 => [(1, ((1 : ℝ) : WithTop ℝ)), (3, ((5 : ℝ) : WithTop ℝ))]
  | 1 => [(0, ((1 : ℝ) : WithTop ℝ)), (2, ((1 : ℝ) : WithTop ℝ)), (3, ⊤)]
  | 2 => [(1, ((1 : ℝ) : WithTop ℝ)), (3, ((1 : ℝ) : WithTop ℝ))]
  | 3 => [(2, ((1 : ℝ) : WithTop ℝ)), (0, ((5 : ℝ) : WithTop ℝ))]
  | _ => []

theorem square_ok : Ok square 4 where
  lt := by
    intro u e he
    match u with
    | 0 | 1 | 2 | 3 => simp [square] at he; rcases he with rfl | rfl | rfl <;> simp
    | _ + 4 => simp [square] at he
  nonneg := by
    intro u e he
    match u with
    | 0 | 1 | 2 | 3 =>
      simp [square] at he
      rcases he with rfl | rfl | rfl <;> first | exact le_top | (show ((0 : ℝ) : WithTop ℝ) ≤ _; exact WithTop.coe_le_coe.mpr (by norm_num))
    | _ + 4 => simp [square] at he

example : ∃ path len, dijkstraOne square firstMin 4 0 3 = some (path, len) ∧ Walk square 0 3 len path ∧ len ≤ 3 := by
  have hw : Walk square 0 3 (0 + 1 + 1 + 1) [3, 2, 1, 0] := by
    refine .snoc (u := 2) (.snoc (u := 1) (.snoc (u := 0) .nil ?_) ?_) ?_ <;> simp [square]
  obtain ⟨path, len, e, w, _, o⟩ := (C63_dijkstra (t := 3) square_ok firstMin_spec (by norm_num : 0 < 4)).1 ⟨_, _, hw⟩
  refine ⟨path, len, e, w, ?_⟩
  have := o _ _ hw
  linarith

end Kwant.Dijkstra
