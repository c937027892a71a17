import Verif.Fib.Ops
import Verif.Gauge.Dijkstra

/-! C143: Dijkstra's algorithm on top of the Fibonacci heap. -/

set_option linter.unusedSectionVars false

namespace Kwant.Fib

open Kwant.Dijkstra (Csr Status Walk Ok St relax loop MinPick pop calcPath)

/-- The arrays `nodes` (the field `state` is separate) and `pred`, and the heap. -/
structure FSt where
  status : ℕ → Status
  pred : ℕ → Option ℕ
  heap : Heap

/-- Body of the loop over the entries of a row, for a node `j` and a finite weight (dijkstra.pyx l.149-161). -/
noncomputable def relaxW (F v : ℕ) (st : FSt) (j : ℕ) (w : ℝ) : Except Fault FSt :=
  if st.status j = .scanned then .ok st
  else if st.status j = .notInHeap then
    (insertNode F ⟨setVal st.heap.mem j ((st.heap.mem v).val + w), st.heap.min⟩ j).map fun h =>
      ⟨Function.update st.status j .inHeap, Function.update st.pred j (some v), h⟩
  else if (st.heap.mem j).val > (st.heap.mem v).val + w then
    (decreaseVal F st.heap j ((st.heap.mem v).val + w)).map fun h => ⟨st.status, Function.update st.pred j (some v), h⟩
  else .ok st

/-- Body of the loop over the entries of a row (dijkstra.pyx l.145-161); entries of infinite weight are skipped. -/
noncomputable def relaxF (F v : ℕ) (st : FSt) (e : ℕ × WithTop ℝ) : Except Fault FSt :=
  match e.2 with
  | ⊤ => .ok st
  | (w : ℝ) => relaxW F v st e.1 w

/-- The loop over the entries of a row (dijkstra.pyx l.144-161). -/
noncomputable def relaxAllF (F v : ℕ) : FSt → List (ℕ × WithTop ℝ) → Except Fault FSt
  | st, [] => .ok st
  | st, e :: l => (relaxF F v st e).bind fun st' => relaxAllF F v st' l

variable (G : Csr)

/-- The `while` loop (dijkstra.pyx l.133-161); the result has the value of the target if it was found. -/
noncomputable def loopF (F t : ℕ) : ℕ → FSt → Except Fault (FSt × Option ℝ)
  | 0, _ => .error .fuel
  | f + 1, st => st.heap.min.elim (.ok (st, none)) fun _ =>
      (removeMin F st.heap).bind fun r =>
        let st1 : FSt := ⟨Function.update st.status r.2 .scanned, st.pred, r.1⟩
        if r.2 = t then .ok (st1, some (r.1.mem r.2).val)
        else (relaxAllF F r.2 st1 (G r.2)).bind fun st2 => loopF F t f st2

/-- One iteration of the outer loop (dijkstra.pyx l.122-161) for a graph of `n` nodes: the path and its length if the target is found. -/
noncomputable def dijkstraF (F n s t : ℕ) : Except Fault (Option (List ℕ × ℝ)) :=
  (insertNode F ⟨initMem, none⟩ s).bind fun h => (loopF G F t (n + 1) ⟨fun _ => .notInHeap, fun _ => none, h⟩).map fun r =>
    r.2.bind fun len => (calcPath r.1.pred s (n + 1) t).map fun p => (p, len)

/-! ### Simulation -/

variable {G}

/-- The concrete and the abstract state belong together. -/
structure Rel (N : ℕ) (c : FSt) (a : St) : Prop where
  status : c.status = a.status
  pred : c.pred = a.pred
  val : ∀ x, (c.heap.mem x).val = a.val x
  heap : ∃ kids, HeapOk c.heap kids N ∧ ∀ x, (∃ p, x ∈ kids p) ↔ x ∈ a.heap

/-- The state of the nodes says if they are in the heap. -/
structure Flags (a : St) : Prop where
  iff : ∀ x, x ∈ a.heap ↔ a.status x = .inHeap
  nodup : a.heap.Nodup

theorem relax_flags {v a} (hf : Flags a) (e : ℕ × WithTop ℝ) : Flags (relax v a e) ∧ ∀ x, a.status x = .scanned → (relax v a e).status x = .scanned := by
  obtain ⟨j, w⟩ := e
  cases w with
  | top => exact ⟨hf, fun x h => h⟩
  | coe w =>
    simp only [relax]
    by_cases h1 : a.status j = .scanned
    · rw [if_pos h1]; exact ⟨hf, fun x h => h⟩
    · rw [if_neg h1]
      by_cases h2 : a.status j = .notInHeap
      · rw [if_pos h2]
        have hj : j ∉ a.heap := fun h => by rw [(hf.iff j).mp h] at h2; cases h2
        refine ⟨⟨fun x => ?_, ?_⟩, fun x hx => ?_⟩
        · simp only [List.mem_append, List.mem_singleton, hf.iff]
          by_cases hx : x = j
          · subst hx; simp
          · simp [Function.update_of_ne hx, hx]
        · exact List.nodup_append.mpr ⟨hf.nodup, by simp, by simp only [List.mem_singleton]; rintro x hx y rfl rfl; exact hj hx⟩
        · have : x ≠ j := by rintro rfl; exact h1 hx
          simpa [Function.update_of_ne this] using hx
      · rw [if_neg h2]
        split
        · exact ⟨⟨hf.iff, hf.nodup⟩, fun x h => h⟩
        · exact ⟨hf, fun x h => h⟩

theorem foldl_flags {v} (l : List (ℕ × WithTop ℝ)) : ∀ {a}, Flags a → Flags (l.foldl (relax v) a) ∧ ∀ x, a.status x = .scanned → (l.foldl (relax v) a).status x = .scanned := by
  induction l with
  | nil => exact fun hf => ⟨hf, fun x h => h⟩
  | cons e l ih =>
    intro a hf
    obtain ⟨h1, h2⟩ := relax_flags (v := v) hf e
    obtain ⟨h3, h4⟩ := ih h1
    exact ⟨h3, fun x hx => h4 x (h2 x hx)⟩

theorem relax_sim {F N v c a} (hF : N < F) (hr : Rel N c a) (hf : Flags a) (e : ℕ × WithTop ℝ) (he : e.1 < N) :
    ∃ c', relaxF F v c e = .ok c' ∧ Rel N c' (relax v a e) := by
  obtain ⟨j, w⟩ := e
  cases w with
  | top => exact ⟨c, rfl, hr⟩
  | coe w =>
    obtain ⟨kids, ok, hm⟩ := hr.heap
    simp only [relaxF, relaxW, relax, hr.status, hr.val]
    by_cases h1 : a.status j = .scanned
    · rw [if_pos h1, if_pos h1]; exact ⟨c, rfl, hr⟩
    · rw [if_neg h1, if_neg h1]
      by_cases h2 : a.status j = .notInHeap
      · rw [if_pos h2, if_pos h2]
        have hj : j ∉ a.heap := fun h => by rw [(hf.iff j).mp h] at h2; cases h2
        have hfree : ∀ p, j ∉ kids p := fun p hp => hj ((hm j).mp ⟨p, hp⟩)
        obtain ⟨h', kids', e, ok', v', m'⟩ := insert_ok F N hF _ kids (setVal_ok N c.heap kids ok j hfree (a.val v + w)) j hfree he
        refine ⟨_, by rw [e]; rfl, ⟨rfl, by simp only [hr.pred], fun x => ?_, kids', ok', fun x => ?_⟩⟩
        · simp only [v', (setVal_fields c.heap.mem j (a.val v + w) x).1]
          by_cases hx : x = j
          · subst hx; simp
          · simp [Function.update_of_ne hx, hr.val]
        · rw [m', hm, List.mem_append, List.mem_singleton, or_comm]
      · rw [if_neg h2, if_neg h2]
        by_cases h3 : a.val j > a.val v + w
        · rw [if_pos h3, if_pos h3]
          have h4 : a.status j = .inHeap := by
            cases h5 : a.status j with
            | scanned => exact absurd h5 h1
            | notInHeap => exact absurd h5 h2
            | inHeap => rfl
          obtain ⟨h', kids', e, ok', v', m'⟩ := decrease_ok F N hF c.heap kids ok j ((hm j).mpr ((hf.iff j).mpr h4)) (a.val v + w) (by rw [hr.val]; exact h3.le)
          refine ⟨⟨a.status, Function.update c.pred j (some v), h'⟩, by rw [e]; rfl, ⟨rfl, by simp only [hr.pred], fun x => ?_, kids', ok', fun x => by rw [m', hm]⟩⟩
          simp only [v', hr.val]
          by_cases hx : x = j
          · subst hx; simp
          · simp [Function.update_of_ne hx, hx]
        · rw [if_neg h3, if_neg h3]; exact ⟨c, rfl, hr⟩

theorem foldl_sim {F N v} (hF : N < F) (l : List (ℕ × WithTop ℝ)) : ∀ {c a}, Rel N c a → Flags a → (∀ e ∈ l, e.1 < N) → ∃ c', relaxAllF F v c l = .ok c' ∧ Rel N c' (l.foldl (relax v) a) := by
  induction l with
  | nil => exact fun hr _ _ => ⟨_, rfl, hr⟩
  | cons e l ih =>
    intro c a hr hf hl
    obtain ⟨c1, e1, r1⟩ := relax_sim (v := v) hF hr hf e (hl e (by simp))
    obtain ⟨c2, e2, r2⟩ := ih r1 (relax_flags hf e).1 (fun e' he' => hl e' (by simp [he']))
    exact ⟨c2, by rw [relaxAllF, e1]; exact e2, r2⟩

theorem pop_flags {s a} (hf : Flags a ∨ (a.heap = [s] ∧ ∀ x, a.status x = .notInHeap)) {v} (hv : v ∈ a.heap) : Flags (pop v a) := by
  rcases hf with hf | ⟨h1, h2⟩
  · refine ⟨fun x => ?_, hf.nodup.erase v⟩
    simp only [pop, hf.nodup.mem_erase_iff, hf.iff]
    by_cases hx : x = v
    · subst hx; simp
    · simp [Function.update_of_ne hx, hx]
  · rw [h1, List.mem_singleton] at hv
    subst hv
    refine ⟨fun x => ?_, by simp [pop, h1]⟩
    simp only [pop, h1]
    by_cases hx : x = v
    · subst hx; simp
    · simp [Function.update_of_ne hx, h2]

theorem pop_flags' {a} (hf : Flags a) (v : ℕ) : Flags (pop v a) := by
  refine ⟨fun x => ?_, hf.nodup.erase v⟩
  simp only [pop, hf.nodup.mem_erase_iff, hf.iff]
  by_cases hx : x = v
  · subst hx; simp
  · simp [Function.update_of_ne hx, hx]

/-- After `v` was removed from the heap it does not matter which node is taken from heaps with `v`. -/
theorem loop_congr {pick pick' : List ℕ → (ℕ → ℝ) → ℕ} {t v : ℕ} (h : ∀ l val, v ∉ l → pick l val = pick' l val) (fuel : ℕ) :
    ∀ {a}, Flags a → a.status v = .scanned → loop G pick t fuel a = loop G pick' t fuel a := by
  induction fuel with
  | zero => intro a _ _; rfl
  | succ f ih =>
    intro a hf hv
    have hn : v ∉ a.heap := fun hh => by rw [(hf.iff v).mp hh] at hv; cases hv
    cases hh : a.heap with
    | nil => simp only [loop, hh]
    | cons x l =>
      rw [hh] at hn
      simp only [loop, hh, h _ a.val hn]
      split
      · rfl
      · obtain ⟨g1, g2⟩ := foldl_flags (v := pick' (x :: l) a.val) (G (pick' (x :: l) a.val)) (pop_flags' hf (pick' (x :: l) a.val))
        refine ih g1 (g2 v ?_)
        simp only [pop]
        by_cases hx : v = pick' (x :: l) a.val
        · rw [hx]; simp
        · rw [Function.update_of_ne hx]; exact hv

open Classical in
theorem loop_sim {F N t s : ℕ} (hF : N < F) (hG : ∀ u, ∀ e ∈ G u, e.1 < N) (fuel : ℕ) : ∀ {c a}, Rel N c a → (Flags a ∨ (a.heap = [s] ∧ ∀ x, a.status x = .notInHeap)) →
    (loopF G F t fuel c = .error .overflow ∧ 200 < N) ∨ ∃ pick, MinPick pick ∧ (loop G pick t fuel a = none → loopF G F t fuel c = .error .fuel) ∧
      ∀ a' r, loop G pick t fuel a = some (a', r) → ∃ c', loopF G F t fuel c = .ok (c', r) ∧ c'.pred = a'.pred := by
  induction fuel with
  | zero => exact fun _ _ => .inr ⟨_, Kwant.Dijkstra.firstMin_spec, fun _ => rfl, fun a' r h => by simp [loop] at h⟩
  | succ f ih =>
    intro c a hr hf
    obtain ⟨kids, ok, hm⟩ := hr.heap
    cases hh : a.heap with
    | nil =>
      right
      refine ⟨_, Kwant.Dijkstra.firstMin_spec, fun h => by simp [loop, hh] at h, fun a' r h => ?_⟩
      simp only [loop, hh, Option.some.injEq, Prod.mk.injEq] at h
      obtain ⟨rfl, rfl⟩ := h
      refine ⟨c, ?_, hr.pred⟩
      rcases ok.min with ⟨h1, h2⟩ | ⟨mn, h1, h2, -⟩
      · rw [loopF, h1]; rfl
      · have := (hm mn).mp ⟨none, h1⟩
        rw [hh] at this; simp at this
    | cons x0 l0 =>
      have hx0 : ∃ p, x0 ∈ kids p := (hm x0).mpr (by rw [hh]; simp)
      have hmin : ∃ mn, c.heap.min = some mn := by
        rcases ok.min with ⟨h1, h2⟩ | ⟨mn, h1, h2, -⟩
        · obtain ⟨r, hr, -⟩ := ok.forest.root x0 hx0
          rw [h2] at hr; simp at hr
        · exact ⟨mn, h2⟩
      obtain ⟨mn, hmn⟩ := hmin
      rcases removeMin_ok F N hF c.heap kids ok x0 hx0 with ⟨e, hN⟩ | ⟨h', kids', v, e, ok', v', ho, hle, m', -⟩
      · left; exact ⟨by rw [loopF, hmn]; simp only [Option.elim, e]; rfl, hN⟩
      · have hvh : v ∈ a.heap := (hm v).mp ho
        have hfl := pop_flags hf hvh
        have hnd : a.heap.Nodup := by
          rcases hf with hf | ⟨h1, -⟩
          · exact hf.nodup
          · rw [h1]; simp
        have hrel : Rel N ⟨Function.update c.status v .scanned, c.pred, h'⟩ (pop v a) := by
          refine ⟨by simp only [pop, hr.status], hr.pred, fun x => by simp only [v', hr.val, pop], kids', ok', fun x => ?_⟩
          rw [m', hm, pop, hnd.mem_erase_iff]
        have hstep : loopF G F t (f + 1) c = if v = t then .ok (⟨Function.update c.status v .scanned, c.pred, h'⟩, some (h'.mem v).val)
            else (relaxAllF F v ⟨Function.update c.status v .scanned, c.pred, h'⟩ (G v)).bind fun st2 => loopF G F t f st2 := by
          rw [loopF, hmn]; simp only [Option.elim, e]; rfl
        have hstepA : ∀ pick : List ℕ → (ℕ → ℝ) → ℕ, pick a.heap a.val = v →
            loop G pick t (f + 1) a = if v = t then some (pop v a, some ((pop v a).val v)) else loop G pick t f ((G v).foldl (relax v) (pop v a)) := by
          intro pick hp
          rw [hh] at hp
          simp only [loop, hh, hp]
        have hmp : ∀ pick', MinPick pick' → MinPick (fun h val => if h = a.heap ∧ val = a.val then v else pick' h val) := by
          intro pick' hp h val hne
          simp only
          split
          · rename_i hc
            obtain ⟨rfl, rfl⟩ := hc
            exact ⟨hvh, fun x hx => by rw [← hr.val, ← hr.val]; exact hle x ((hm x).mpr hx)⟩
          · exact hp h val hne
        by_cases hvt : v = t
        · right
          refine ⟨_, hmp _ Kwant.Dijkstra.firstMin_spec, ?_, ?_⟩
          · rw [hstepA _ (by simp), if_pos hvt]; simp
          · rw [hstepA _ (by simp), if_pos hvt, hstep, if_pos hvt]
            intro a' r h
            simp only [Option.some.injEq, Prod.mk.injEq] at h
            obtain ⟨rfl, rfl⟩ := h
            exact ⟨⟨Function.update c.status v .scanned, c.pred, h'⟩, by rw [show (h'.mem v).val = (pop v a).val v from hrel.val v], hr.pred⟩
        · obtain ⟨c2, e2, r2⟩ := foldl_sim (v := v) hF (G v) hrel hfl (hG v)
          obtain ⟨g1, g2⟩ := foldl_flags (v := v) (G v) hfl
          rw [hstep, if_neg hvt, e2]
          rcases ih r2 (.inl g1) with ⟨e3, hN⟩ | ⟨pick', hp', n1, n2⟩
          · left; exact ⟨e3, hN⟩
          · right
            refine ⟨_, hmp pick' hp', ?_⟩
            rw [hstepA _ (by simp), if_neg hvt, loop_congr (pick' := pick') (v := v) ?_ f g1 (g2 v (by simp [pop]))]
            · exact ⟨n1, n2⟩
            · intro l val hl
              have : ¬ (l = a.heap ∧ val = a.val) := fun hc => hl (by rw [hc.1]; exact hvh)
              simp only [this, if_false]

/-- C143.  `dijkstra_directed`, with its Fibonacci heap, on every graph of `n` nodes: for up to 200 nodes (and for more unless there is an access outside of `roots_by_rank`) a shortest path is found if
and only if there is a path at all: the nodes, from the target back to the source, form a path along edges of finite weight without repeated nodes, whose length is the returned one, and no walk
is shorter.  In particular no NULL pointer is followed and all loops end. -/
theorem dijkstraF_spec_partial {F n s t : ℕ} (hF : n < F) (hok : Ok G n) (hs : s < n) :
    (dijkstraF G F n s t = .error .overflow ∧ 200 < n) ∨
    (((∃ L l, Walk G s t L l) → ∃ path len, dijkstraF G F n s t = .ok (some (path, len)) ∧ Walk G s t len path ∧ path.Nodup ∧ ∀ L l, Walk G s t L l → len ≤ L) ∧
     ((¬ ∃ L l, Walk G s t L l) → dijkstraF G F n s t = .ok none)) := by
  obtain ⟨h0, kids0, e0, ok0, v0, m0⟩ := insert_ok F n hF ⟨initMem, none⟩ (fun _ => []) (init_ok n) s (by simp) hs
  have hr : Rel n ⟨fun _ => .notInHeap, fun _ => none, h0⟩ (Kwant.Dijkstra.init s) :=
    ⟨rfl, rfl, fun x => by rw [v0]; rfl, kids0, ok0, fun x => by rw [m0]; simp [Kwant.Dijkstra.init]⟩
  rcases loop_sim (G := G) (t := t) hF hok.lt (n + 1) hr (.inr ⟨rfl, fun _ => rfl⟩) with ⟨e, hn⟩ | ⟨pick, hp, n1, n2⟩
  · left; exact ⟨by rw [dijkstraF, e0]; simp only [Except.bind, e]; rfl, hn⟩
  · right
    have key : dijkstraF G F n s t = .ok (Kwant.Dijkstra.dijkstraOne G pick n s t) := by
      cases hl : loop G pick t (n + 1) (Kwant.Dijkstra.init s) with
      | none =>
        exfalso
        obtain ⟨r1, r2⟩ := Kwant.Dijkstra.init_ready (G := G) (n := n) (s := s)
        rcases Kwant.Dijkstra.loop_spec (G := G) (pick := pick) (t := t) hok hp (n + 1) (Kwant.Dijkstra.init s) (Kwant.Dijkstra.inv_init hs) r1 r2 with ⟨st', e, -⟩ | ⟨st', l, e, -⟩ <;>
          (rw [hl] at e; simp at e)
      | some r =>
        obtain ⟨a', r⟩ := r
        obtain ⟨c', e, hpr⟩ := n2 a' r hl
        rw [dijkstraF, e0]
        simp only [Except.bind, e, Kwant.Dijkstra.dijkstraOne, hl, Except.map]
        cases r with
        | none => rfl
        | some len => simp [hpr]
    obtain ⟨c1, c2⟩ := Kwant.Dijkstra.C63_dijkstra (t := t) hok hp hs
    rw [key]
    refine ⟨fun h => ?_, fun h => by rw [c2 h]⟩
    obtain ⟨path, len, e, hrest⟩ := c1 h
    exact ⟨path, len, by rw [e], hrest⟩

/-- Not empty: the shortest path in the square. -/
example : ∃ path len, dijkstraF Kwant.Dijkstra.square 5 4 0 3 = .ok (some (path, len)) ∧ Walk Kwant.Dijkstra.square 0 3 len path ∧ len ≤ 3 := by
  have hw : Walk Kwant.Dijkstra.square 0 3 (0 + 1 + 1 + 1) [3, 2, 1, 0] := by
    refine .snoc (u := 2) (.snoc (u := 1) (.snoc (u := 0) .nil ?_) ?_) ?_ <;> simp [Kwant.Dijkstra.square]
  rcases dijkstraF_spec_partial (F := 5) (t := 3) (by norm_num) Kwant.Dijkstra.square_ok (by norm_num : 0 < 4) with ⟨-, h⟩ | ⟨h, -⟩
  · norm_num at h
  · obtain ⟨path, len, e, w, -, o⟩ := h ⟨_, _, hw⟩
    refine ⟨path, len, e, w, ?_⟩
    have := o _ _ hw
    linarith

end Kwant.Fib
