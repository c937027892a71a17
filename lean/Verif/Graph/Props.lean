import Verif.Graph.Query

/-!
# Properties C01-C08 of `kwant.graph`

`run allowNeg ops` is the graph after an arbitrary history of `add_edge` / `num_nodes = v` calls (failing
ones included), `accepted allowNeg ops` is the list of the edges accepted during it.
-/

namespace Kwant.Graph

/-- Compression is possible for a history: two-way, or lost edges allowed, or no negative tails. -/
def Compressible (es : List Edge) (twoway allowLost : Bool) : Prop :=
  twoway = true ∨ allowLost = true ∨ ∀ e ∈ es, 0 ≤ e.tail

/-! ## C07: bookkeeping -/

/-- C07 (a): the edges of the graph are exactly the accepted ones, in order of addition. -/
theorem C07_edges (a : Bool) (ops : List Op) : (run a ops).edges = accepted a ops := run_edges a ops

/-- C07 (b): outcome of `add_edge`: accepted edges get consecutive numbers, rejected ones raise
`ValueError` and leave the graph unchanged. -/
theorem C07_addEdge (a : Bool) (ops : List Op) (t h : Int) :
    (Acceptable a t h → ((run a ops).addEdge t h).2 = .ok ((accepted a ops).length : Int) ∧
        ((run a ops).addEdge t h).1.edges = accepted a ops ++ [⟨t, h⟩]) ∧
    (¬ Acceptable a t h → (run a ops).addEdge t h = (run a ops, .error .valueError)) := by
  have hneg : (run a ops).allowNeg = a := by
    unfold run
    have : ∀ (ops : List Op) (g : Graph), (ops.foldl Graph.step g).allowNeg = g.allowNeg := by
      intro ops
      induction ops with
      | nil => intro g; rfl
      | cons op ops ih =>
        intro g
        rw [List.foldl_cons, ih]
        cases op with
        | setNumNodes v => simp only [Graph.step, Graph.setNumNodes]; split <;> rfl
        | addEdge t h =>
          by_cases hA : Acceptable g.allowNeg t h
          · exact ((addEdge_spec g t h).1 hA).2.2.2
          · simp [Graph.step, (addEdge_spec g t h).2 hA]
    rw [this]; rfl
  have hs := addEdge_spec (run a ops) t h
  rw [hneg, run_edges] at hs
  exact ⟨fun hA => ⟨(hs.1 hA).1, (hs.1 hA).2.1⟩, hs.2⟩

/-- C07 (c): `num_nodes` never decreases. -/
theorem C07_numNodes_mono (a : Bool) (ops ops' : List Op) :
    (run a ops).numNodes ≤ (run a (ops ++ ops')).numNodes := by
  have one : ∀ (g : Graph) (op : Op), g.numNodes ≤ (g.step op).numNodes := by
    intro g op
    cases op with
    | setNumNodes v => simp only [Graph.step, Graph.setNumNodes]; split <;> simp <;> omega
    | addEdge t h =>
      by_cases hA : Acceptable g.allowNeg t h
      · simp only [Graph.step, ((addEdge_spec g t h).1 hA).2.2.1]; omega
      · simp [Graph.step, (addEdge_spec g t h).2 hA]
  unfold run
  rw [List.foldl_append]
  generalize ops.foldl Graph.step (Graph.new a) = g
  induction ops' generalizing g with
  | nil => exact Nat.le_refl _
  | cons op ops ih => exact Nat.le_trans (one g op) (ih _)

/-- C07 (d): every node of every accepted edge is below `num_nodes`, and never both are negative. -/
theorem C07_nodes (a : Bool) (ops : List Op) : ∀ e ∈ accepted a ops,
    e.tail < (run a ops).numNodes ∧ e.head < (run a ops).numNodes ∧ (0 ≤ e.tail ∨ 0 ≤ e.head) := by
  have := (run_wf a ops).bnd
  rwa [run_edges] at this

/-- Assigning `num_nodes`: rejected iff smaller than the current value, otherwise takes effect. -/
theorem C07_setNumNodes (g : Graph) (v : Int) :
    (v < g.numNodes → g.setNumNodes v = (g, .error .valueError)) ∧
    (¬ v < g.numNodes → (g.setNumNodes v).2 = .ok () ∧ ((g.setNumNodes v).1.numNodes : Int) = v ∧
      (g.setNumNodes v).1.edges = g.edges) := by
  constructor
  · intro h; simp [Graph.setNumNodes, h]
  · intro h; simp [Graph.setNumNodes, h]; omega

theorem numNP_eq_zero {g : Graph} (h : WF g) : g.numNP = 0 ↔ ∀ e ∈ g.edges, 0 ≤ e.tail := by
  rw [h.np, List.length_eq_zero_iff, List.filter_eq_nil_iff]
  constructor
  · intro h1 e he
    have := h1 e he
    have := (h.bnd e he).2.2
    simp at *; omega
  · intro h1 e he
    have := h1 e he
    simp; omega

/-- The array-level content of a compressed graph (helper for all theorems below). -/
theorem compress (a : Bool) (ops : List Op) (junk : Nat → Int) (tw tr al : Bool)
    (hc : Compressible (accepted a ops) tw al) :
    ∃ c, (run a ops).compressed junk tw tr al = .ok c ∧ Compressed (run a ops) tw tr c := by
  refine (compressed_spec junk (run_wf a ops) tw tr al).1 ?_
  rwa [numNP_eq_zero (run_wf a ops), run_edges]

/-- C07 (e): compression fails (with `ValueError`) iff it is one-way, lost edges are not allowed and some
accepted edge has a negative tail; in all other cases it succeeds (no assertion failure, no access
outside of the arrays). -/
theorem C07_compressed (a : Bool) (ops : List Op) (junk : Nat → Int) (tw tr al : Bool) :
    (Compressible (accepted a ops) tw al → ∃ c, (run a ops).compressed junk tw tr al = .ok c ∧
      c.numNodes = (run a ops).numNodes ∧
      c.numEdges = if tw then (accepted a ops).length else
        ((accepted a ops).filter fun e => decide (0 ≤ e.tail)).length) ∧
    (¬ Compressible (accepted a ops) tw al →
      (run a ops).compressed junk tw tr al = .error .valueError) := by
  constructor
  · intro hc
    obtain ⟨c, h1, h2⟩ := compress a ops junk tw tr al hc
    refine ⟨c, h1, h2.nn, ?_⟩
    rw [h2.ne, run_edges]
    cases tw with
    | true => rfl
    | false =>
      simp only [start, Bool.false_eq_true, if_false]
      congr 1
      apply List.filter_congr
      intro e he
      have hb := C07_nodes a ops e he
      rw [decide_eq_decide]
      unfold kT
      split <;> omega
  · intro hc
    refine (compressed_spec junk (run_wf a ops) tw tr al).2 ?_
    rwa [numNP_eq_zero (run_wf a ops), run_edges]

/-! ## C01: outgoing neighbours -/

section
variable {g : Graph} {tw tr : Bool} {c : CGraph}

theorem tailKey {n : Nat} {t : Nat} (ht : t < n) (es : List Edge) :
    (es.filter fun e => kT n e == t) = es.filter fun e => e.tail == (t : Int) := by
  apply List.filter_congr
  intro e _
  have : (kT n e = t) ↔ (e.tail = (t : Int)) := by unfold kT; split <;> omega
  rw [Bool.eq_iff_iff, beq_iff_eq, beq_iff_eq]; exact this

theorem headKey {n : Nat} {t : Nat} (ht : t < n) (e : Edge) :
    (kH n e == t) = (e.head == (t : Int)) := by
  have : (kH n e = t) ↔ (e.head = (t : Int)) := by unfold kH; split <;> omega
  rw [Bool.eq_iff_iff, beq_iff_eq, beq_iff_eq]; exact this

theorem tailKey' {n : Nat} {t : Nat} (ht : t < n) (e : Edge) :
    (kT n e == t) = (e.tail == (t : Int)) := by
  have : (kT n e = t) ↔ (e.tail = (t : Int)) := by unfold kT; split <;> omega
  rw [Bool.eq_iff_iff, beq_iff_eq, beq_iff_eq]; exact this

theorem Compressed.rd_hidx (hc : Compressed g tw tr c) {t : Nat} (ht : t ≤ g.numNodes) :
    rd c.headsIdxs (t : Int) = .ok (start (kT g.numNodes) g.edges t : Int) := rd_ok (hc.hidx t ht)
theorem Compressed.rd_tidx (hc : Compressed g tw tr c) (htw : tw = true) {t : Nat} (ht : t ≤ g.numNodes) :
    rd c.tailsIdxs (t : Int) = .ok (start (kH g.numNodes) g.edges t : Int) := rd_ok (hc.tidx htw t ht)

theorem bucket_nonneg {n k : Nat} (hk : k < n) {e : Edge} (h : kT n e = k) : 0 ≤ e.tail := by
  unfold kT at h; split at h <;> omega
theorem bucket_nonneg' {n k : Nat} (hk : k < n) {e : Edge} (h : kH n e = k) : 0 ≤ e.head := by
  unfold kH at h; split at h <;> omega

theorem Compressed.slice_heads (hc : Compressed g tw tr c) {k : Nat} (hk : k < g.numNodes) :
    slice c.heads (start (kT g.numNodes) g.edges k : Int) (start (kT g.numNodes) g.edges (k+1) : Int) =
      .ok ((g.edges.filter fun e => e.tail == (k : Int)).map (·.head)) := by
  rw [slice_bucket hc.heads k (fun e _ h => Or.inl (bucket_nonneg hk h))
    (fun i => ((g.edges[i]?).map (·.head)).getD 0)
    (fun a e b h _ => by simp [split_getElem? h])]
  rw [numbersOf_map _ _ _ (·.head) (fun a e b h => by simp [split_getElem? h]), tailKey hk]

theorem Compressed.slice_tails (hc : Compressed g tw tr c) (htw : tw = true) {k : Nat} (hk : k < g.numNodes) :
    slice c.tails (start (kH g.numNodes) g.edges k : Int) (start (kH g.numNodes) g.edges (k+1) : Int) =
      .ok ((g.edges.filter fun e => e.head == (k : Int)).map (·.tail)) := by
  rw [slice_bucket (hc.tails htw) k (fun e _ h => bucket_nonneg' hk h)
    (fun i => ((g.edges[i]?).map (·.tail)).getD 0)
    (fun a e b h _ => by simp [split_getElem? h])]
  rw [numbersOf_map _ _ _ (·.tail) (fun a e b h => by simp [split_getElem? h])]
  congr 3
  funext e; exact headKey hk e

theorem Compressed.eid_specId (hw : WF g) {a e b} (h : g.edges = a ++ e :: b) (hr : 0 ≤ e.tail ∨ tw = true) :
    eid tw g.numNodes g.edges a e = (specId g.edges a.length : Int) := by
  rw [specId_eq (fun e he => (hw.bnd e he).1) h]; simp [eid, hr]

theorem Compressed.slice_eids (hc : Compressed g tw tr c) (hw : WF g) (htw : tw = true) {k : Nat}
    (hk : k < g.numNodes) :
    slice c.edgeIds (start (kH g.numNodes) g.edges k : Int) (start (kH g.numNodes) g.edges (k+1) : Int) =
      .ok ((numbersOf (fun e => e.head == (k : Int)) g.edges).map fun i => (specId g.edges i : Int)) := by
  rw [slice_bucket (hc.eids htw) k (fun e _ h => bucket_nonneg' hk h)
    (fun i => (specId g.edges i : Int))
    (fun a e b h _ => Compressed.eid_specId hw h (Or.inr htw))]
  congr 3
  funext e; exact headKey hk e

end

/-- C01: `out_neighbors(t)` of the compressed graph is the list of heads of the edges added with tail
`t`, in the order of addition, for every existing node; other nodes raise `NodeDoesNotExistError`. -/
theorem C01_outNeighbors (a : Bool) (ops : List Op) (junk : Nat → Int) (tw tr al : Bool)
    (hcomp : Compressible (accepted a ops) tw al) :
    ∃ c, (run a ops).compressed junk tw tr al = .ok c ∧ ∀ t : Int,
      c.outNeighbors t =
        if 0 ≤ t ∧ t < (run a ops).numNodes then
          .ok (((accepted a ops).filter fun e => e.tail == t).map (·.head))
        else .error .nodeDoesNotExist := by
  obtain ⟨c, h1, hc⟩ := compress a ops junk tw tr al hcomp
  refine ⟨c, h1, fun t => ?_⟩
  unfold CGraph.outNeighbors
  rw [hc.nn]
  by_cases ht : 0 ≤ t ∧ t < (run a ops).numNodes
  · rw [if_neg (by omega), if_pos ht]
    obtain ⟨k, rfl⟩ := Int.eq_ofNat_of_zero_le ht.1
    have hk : k < (run a ops).numNodes := by omega
    have e1 := hc.rd_hidx (t := k) (by omega)
    have e2 := hc.rd_hidx (t := k+1) (by omega)
    simp only [Int.natCast_add, Int.cast_ofNat_Int] at e2
    rw [← run_edges]
    simp only [e1, e2, ok_bind, hc.slice_heads hk]
  · rw [if_pos (by omega), if_neg ht]

/-! ## C02: incoming neighbours -/

/-- C02: in a two-way compressed graph, `in_neighbors(h)` lists the tails of the edges added with head `h`
in order of addition, and `in_edge_ids(h)` lists, in the same order, the IDs of exactly these edges; the
head of each of these IDs is `h`. -/
theorem C02_inNeighbors (a : Bool) (ops : List Op) (junk : Nat → Int) (tr al : Bool) :
    ∃ c, (run a ops).compressed junk true tr al = .ok c ∧ ∀ h : Int,
      (c.inNeighbors h =
        if 0 ≤ h ∧ h < (run a ops).numNodes then
          .ok (((accepted a ops).filter fun e => e.head == h).map (·.tail))
        else .error .nodeDoesNotExist) ∧
      (c.inEdgeIds h =
        if 0 ≤ h ∧ h < (run a ops).numNodes then
          .ok ((numbersOf (fun e => e.head == h) (accepted a ops)).map
            fun i => (specId (accepted a ops) i : Int))
        else .error .nodeDoesNotExist) := by
  obtain ⟨c, h1, hc⟩ := compress a ops junk true tr al (Or.inl rfl)
  refine ⟨c, h1, fun t => ?_⟩
  unfold CGraph.inNeighbors CGraph.inEdgeIds
  rw [hc.nn, hc.tw_eq]
  by_cases ht : 0 ≤ t ∧ t < (run a ops).numNodes
  · have ht' : ¬ (t < 0 ∨ t ≥ (run a ops).numNodes) := by omega
    simp only [ht, ht', not_true_eq_false, if_false, and_self, if_true]
    obtain ⟨k, rfl⟩ := Int.eq_ofNat_of_zero_le ht.1
    have hk : k < (run a ops).numNodes := by omega
    have e1 := hc.rd_tidx rfl (t := k) (by omega)
    have e2 := hc.rd_tidx rfl (t := k+1) (by omega)
    simp only [Int.natCast_add, Int.cast_ofNat_Int] at e2
    constructor
    · rw [← run_edges]; simp only [e1, e2, ok_bind, hc.slice_tails rfl hk]
    · rw [← run_edges]; simp only [e1, e2, ok_bind, hc.slice_eids (run_wf a ops) rfl hk]
  · have ht' : t < 0 ∨ t ≥ (run a ops).numNodes := by omega
    simp only [ht, ht', not_true_eq_false, if_false, if_true]
    exact ⟨trivial, trivial⟩

/-- Incoming queries on a one-way compressed graph raise `DisabledFeatureError`. -/
theorem C02_disabled (a : Bool) (ops : List Op) (junk : Nat → Int) (tr al : Bool)
    (hcomp : Compressible (accepted a ops) false al) :
    ∃ c, (run a ops).compressed junk false tr al = .ok c ∧ ∀ h : Int,
      c.inNeighbors h = .error .disabledFeature ∧ c.inEdgeIds h = .error .disabledFeature := by
  obtain ⟨c, h1, hc⟩ := compress a ops junk false tr al hcomp
  refine ⟨c, h1, fun t => ?_⟩
  simp [CGraph.inNeighbors, CGraph.inEdgeIds, hc.tw_eq]

/-! ## C03: edge IDs -/

/-- The edges that are representable in the compressed graph. -/
def Representable (tw : Bool) (e : Edge) : Prop := 0 ≤ e.tail ∨ tw = true

theorem specId_lt {g : Graph} {tw tr : Bool} {c : CGraph} (hw : WF g) (hc : Compressed g tw tr c) {a e b}
    (h : g.edges = a ++ e :: b) (hr : Representable tw e) : specId g.edges a.length < c.numEdges := by
  rw [specId_eq (fun e he => (hw.bnd e he).1) h, hc.ne]
  have h1 := slot_lt (key := kT g.numNodes) h
  cases tw with
  | true => have := start_le (kT g.numNodes) g.edges (kT g.numNodes e + 1); simp; omega
  | false =>
    have hr : 0 ≤ e.tail := by simpa [Representable] using hr
    have he : e ∈ g.edges := by rw [h]; simp
    have := hw.kT_lt he hr
    have := start_mono (kT g.numNodes) g.edges (j := kT g.numNodes e + 1) (k := g.numNodes) (by omega)
    simp; omega

/-- C03 (a): `specId` assigns distinct IDs to distinct edges. -/
theorem C03_specId_injective (a : Bool) (ops : List Op) (i j : Nat) (hi : i < (accepted a ops).length)
    (hj : j < (accepted a ops).length) (h : specId (accepted a ops) i = specId (accepted a ops) j) : i = j := by
  have hb : ∀ e ∈ accepted a ops, e.tail < (run a ops).numNodes := fun e he => (C07_nodes a ops e he).1
  obtain ⟨s1, l1⟩ := getElem?_split (List.getElem?_eq_getElem hi)
  obtain ⟨s2, l2⟩ := getElem?_split (List.getElem?_eq_getElem hj)
  have e1 := specId_eq hb s1
  have e2 := specId_eq hb s2
  rw [l1] at e1; rw [l2] at e2
  have := slot_inj s1 s2 (by rw [← e1, ← e2, h])
  omega

/-- C03 (b): with `edge_nr_translation`, `edge_id(nr)` is the ID of the `nr`-th added edge, IDs lie in
`0..num_edges-1`, and `head` of this ID is the head of that edge; unrepresentable edges and numbers out
of range raise `EdgeDoesNotExistError`. -/
theorem C03_edgeId (a : Bool) (ops : List Op) (junk : Nat → Int) (tw al : Bool)
    (hcomp : Compressible (accepted a ops) tw al) :
    ∃ c, (run a ops).compressed junk tw true al = .ok c ∧
      (∀ (nr : Nat) (e : Edge), (accepted a ops)[nr]? = some e → Representable tw e →
        c.edgeId nr = .ok (specId (accepted a ops) nr : Int) ∧ specId (accepted a ops) nr < c.numEdges ∧
        c.head (specId (accepted a ops) nr) = .ok e.head) ∧
      (∀ (nr : Nat) (e : Edge), (accepted a ops)[nr]? = some e → ¬ Representable tw e →
        c.edgeId nr = .error .edgeDoesNotExist) ∧
      (∀ nr : Int, nr < 0 ∨ (accepted a ops).length ≤ nr → c.edgeId nr = .error .edgeDoesNotExist) := by
  obtain ⟨c, h1, hc⟩ := compress a ops junk tw true al hcomp
  have hw := run_wf a ops
  refine ⟨c, h1, ?_, ?_, ?_⟩
  · intro nr e he hr
    rw [← run_edges] at he ⊢
    obtain ⟨s1, l1⟩ := getElem?_split he
    have hlt := specId_lt hw hc s1 hr
    have hnr := hc.nr rfl _ _ _ s1
    rw [Compressed.eid_specId hw s1 hr] at hnr
    have hhd := hc.heads _ _ _ s1 hr
    rw [← specId_eq (fun e he => (hw.bnd e he).1) s1] at hhd
    rw [l1] at hlt hnr hhd
    have hnrlt : nr < (run a ops).edges.length := (List.getElem?_eq_some_iff.mp he).1
    refine ⟨?_, hlt, ?_⟩
    · unfold CGraph.edgeId
      rw [hc.tr_eq, hc.nrEnd, if_neg (by simp), if_neg (by omega), rd_ok hnr]
      simp only [ok_bind, pure_eq_ok]
      rw [if_neg (by omega)]
    · unfold CGraph.head
      rw [if_neg (by omega), rd_ok hhd]
  · intro nr e he hr
    rw [← run_edges] at he
    obtain ⟨s1, l1⟩ := getElem?_split he
    have hnr := hc.nr rfl _ _ _ s1
    have : eid tw (run a ops).numNodes (run a ops).edges (List.take nr (run a ops).edges) e = -1 := by
      unfold Representable at hr; simp [eid, hr]
    rw [this, l1] at hnr
    have hnrlt : nr < (run a ops).edges.length := (List.getElem?_eq_some_iff.mp he).1
    unfold CGraph.edgeId
    rw [hc.tr_eq, hc.nrEnd, if_neg (by simp), if_neg (by omega), rd_ok hnr]
    simp
  · intro nr h
    unfold CGraph.edgeId
    rw [hc.tr_eq, hc.nrEnd, run_edges, if_neg (by simp), if_pos (by omega)]

/-- C03 (c): conversely, every ID in `0..num_edges-1` is the ID of a representable added edge; in
particular `head` answers for every such ID, and raises `EdgeDoesNotExistError` otherwise. -/
theorem C03_surjective (a : Bool) (ops : List Op) (junk : Nat → Int) (tw tr al : Bool)
    (hcomp : Compressible (accepted a ops) tw al) :
    ∃ c, (run a ops).compressed junk tw tr al = .ok c ∧
      (∀ id : Nat, id < c.numEdges → ∃ (nr : Nat) (e : Edge), (accepted a ops)[nr]? = some e ∧
        Representable tw e ∧ specId (accepted a ops) nr = id ∧ c.head id = .ok e.head) ∧
      (∀ id : Int, id < 0 ∨ c.numEdges ≤ id → c.head id = .error .edgeDoesNotExist) := by
  obtain ⟨c, h1, hc⟩ := compress a ops junk tw tr al hcomp
  have hw := run_wf a ops
  refine ⟨c, h1, ?_, ?_⟩
  · intro id hid
    have hne := hc.ne
    have hk : ∃ k, id < start (kT (run a ops).numNodes) (run a ops).edges k ∧
        (tw = true ∨ k = (run a ops).numNodes) := by
      cases tw with
      | true =>
        refine ⟨(run a ops).numNodes + 1, ?_, Or.inl rfl⟩
        obtain ⟨n1, n2, n3, n4⟩ := hw.counts
        rw [start_succ, ← n4, ← n1, n3]; simp at hne; omega
      | false => exact ⟨_, by simp at hne; omega, Or.inr rfl⟩
    obtain ⟨k, hk, hk'⟩ := hk
    obtain ⟨p, e, b, s1, s2, s3⟩ := slot_surj _ _ _ _ hk
    have hr : Representable tw e := by
      rcases hk' with h | h
      · exact Or.inr h
      · left; subst h; unfold kT at s3; split at s3 <;> omega
    have hs := specId_eq (fun e he => (hw.bnd e he).1) s1
    have hhd := hc.heads _ _ _ s1 hr
    rw [s2] at hhd
    refine ⟨p.length, e, by rw [← run_edges]; exact split_getElem? s1, hr, by rw [← run_edges, hs, s2], ?_⟩
    unfold CGraph.head
    rw [if_neg (by omega), rd_ok hhd]
  · intro id hid
    unfold CGraph.head
    rw [if_pos (by omega)]

/-- `out_edge_ids(t)` lists the IDs of the edges with tail `t` in order of addition. -/
theorem C03_outEdgeIds (a : Bool) (ops : List Op) (junk : Nat → Int) (tw tr al : Bool)
    (hcomp : Compressible (accepted a ops) tw al) :
    ∃ c, (run a ops).compressed junk tw tr al = .ok c ∧ ∀ t : Int,
      c.outEdgeIds t =
        if 0 ≤ t ∧ t < (run a ops).numNodes then
          .ok ((numbersOf (fun e => e.tail == t) (accepted a ops)).map
            fun i => (specId (accepted a ops) i : Int))
        else .error .nodeDoesNotExist := by
  obtain ⟨c, h1, hc⟩ := compress a ops junk tw tr al hcomp
  have hw := run_wf a ops
  refine ⟨c, h1, fun t => ?_⟩
  unfold CGraph.outEdgeIds
  rw [hc.nn]
  by_cases ht : 0 ≤ t ∧ t < (run a ops).numNodes
  · rw [if_neg (by omega), if_pos ht]
    obtain ⟨k, rfl⟩ := Int.eq_ofNat_of_zero_le ht.1
    have hk : k < (run a ops).numNodes := by omega
    have e1 := hc.rd_hidx (t := k) (by omega)
    have e2 := hc.rd_hidx (t := k+1) (by omega)
    simp only [Int.natCast_add, Int.cast_ofNat_Int] at e2
    simp only [e1, e2, ok_bind, pure_eq_ok]
    rw [← run_edges]
    have hnum : numbersOf (fun e => e.tail == (k : Int)) (run a ops).edges =
        numbersOf (fun e => kT (run a ops).numNodes e == k) (run a ops).edges := by
      congr 1; funext e; exact (tailKey' hk e).symm
    rw [hnum]
    congr 1
    apply List.ext_getElem
    · rw [List.length_map, List.length_map, List.length_range, numbersOf_length, start_succ, cnt]; omega
    · intro i i1 i2
      rw [List.length_map] at i2
      obtain ⟨p, e, b, s1, s2, s3, s4⟩ := numbersOf_split _ _ i _ (List.getElem?_eq_getElem i2)
      have hs := specId_eq (fun e he => (hw.bnd e he).1) s1
      have hke : kT (run a ops).numNodes e = k := by simpa using s2
      simp only [List.getElem_map, List.getElem_range, ← s3, hs, slot, hke, cnt, s4]
      omega
  · rw [if_pos (by omega), if_neg ht]

/-! ## C04: iteration -/

theorem advance_ok {idxs : Mem} {n : Nat} {f : Nat → Nat} (hlen : idxs.length = n + 1)
    (hf : ∀ t ≤ n, idxs[t]? = some (f t : Int)) (id tail k : Nat) (hle : tail ≤ k) (hk : k < n)
    (h1 : ∀ s, tail ≤ s → s < k → f (s+1) ≤ id) (h2 : id < f (k+1)) :
    advance idxs id tail = .ok k := by
  have hr : ∀ t (ht : t ≤ n), idxs[t]'(by omega) = (f t : Int) := by
    intro t ht
    have := hf t ht
    rw [List.getElem?_eq_some_iff] at this
    exact this.2
  generalize hd : k - tail = d
  induction d generalizing tail with
  | zero =>
    have : tail = k := by omega
    subst this
    unfold advance
    rw [dif_pos (by omega), hr _ (by omega), if_neg (by omega)]
  | succ d ih =>
    unfold advance
    have := h1 tail (by omega) (by omega)
    rw [dif_pos (by omega), hr _ (by omega), if_pos (by omega)]
    exact ih (tail+1) (by omega) (fun s hs => h1 s (by omega)) hr (by omega)

/-- C04: iterating a compressed graph without negative tails yields the pairs (tail, head) of all edges
ordered by tail and, for each tail, in order of addition; the `k`-th entry belongs to the edge with ID `k`. -/
theorem C04_toList (a : Bool) (ops : List Op) (junk : Nat → Int) (tw tr al : Bool)
    (hpos : ∀ e ∈ accepted a ops, 0 ≤ e.tail) :
    ∃ c l, (run a ops).compressed junk tw tr al = .ok c ∧ c.toList = .ok l ∧
      l.length = (accepted a ops).length ∧
      (∀ (nr : Nat) (e : Edge), (accepted a ops)[nr]? = some e →
        l[specId (accepted a ops) nr]? = some (e.tail, e.head)) := by
  obtain ⟨c, h1, hc⟩ := compress a ops junk tw tr al (Or.inr (Or.inr hpos))
  have hw := run_wf a ops
  have hpos' : ∀ e ∈ (run a ops).edges, 0 ≤ e.tail := by rw [run_edges]; exact hpos
  obtain ⟨n1, n2, n3, n4⟩ := hw.counts
  have hnp := (numNP_eq_zero hw).mpr hpos'
  have hne : c.numEdges = (run a ops).edges.length := by
    rw [hc.ne]; cases tw <;> simp <;> omega
  have hst : start (kT (run a ops).numNodes) (run a ops).edges (run a ops).numNodes = (run a ops).edges.length := by
    omega
  -- the entry at position `id`
  have hent : ∀ id < c.numEdges, ∃ p e b, (run a ops).edges = p ++ e :: b ∧
      slot (kT (run a ops).numNodes) (run a ops).edges p e = id ∧
      kT (run a ops).numNodes e < (run a ops).numNodes := fun id hid => by
    exact slot_surj _ _ _ _ (by omega)
  have go : ∀ (rem id tail : Nat), id + rem = c.numEdges →
      (∀ p e b, (run a ops).edges = p ++ e :: b → id ≤ slot (kT (run a ops).numNodes) (run a ops).edges p e →
        tail ≤ kT (run a ops).numNodes e) →
      ∃ l, iterGo c rem id tail = .ok l ∧ l.length = rem ∧
        ∀ p e b, (run a ops).edges = p ++ e :: b →
          id ≤ slot (kT (run a ops).numNodes) (run a ops).edges p e →
          l[slot (kT (run a ops).numNodes) (run a ops).edges p e - id]? = some (e.tail, e.head) := by
    intro rem
    induction rem with
    | zero =>
      intro id tail hid _
      refine ⟨[], rfl, rfl, ?_⟩
      intro p e b hs hle
      have h3 := slot_lt (key := kT (run a ops).numNodes) hs
      have := start_le (kT (run a ops).numNodes) (run a ops).edges (kT (run a ops).numNodes e + 1)
      omega
    | succ rem ih =>
      intro id tail hid htail
      obtain ⟨p, e, b, s1, s2, s3⟩ := hent id (by omega)
      have hlt := slot_lt (key := kT (run a ops).numNodes) s1
      have hge : start (kT (run a ops).numNodes) (run a ops).edges (kT (run a ops).numNodes e) ≤ id := by
        rw [← s2]; simp [slot]
      have hadv : advance c.headsIdxs id tail = .ok (kT (run a ops).numNodes e) := by
        apply advance_ok hc.hidx_len hc.hidx id tail _ (htail p e b s1 (by omega)) s3
        · intro s _ hs
          have := start_mono (kT (run a ops).numNodes) (run a ops).edges
            (j := s + 1) (k := kT (run a ops).numNodes e) (by omega)
          omega
        · omega
      have he : e ∈ (run a ops).edges := by rw [s1]; simp
      have hhd := hc.heads _ _ _ s1 (Or.inl (hpos' e he))
      rw [s2] at hhd
      obtain ⟨l, j1, j2, j3⟩ := ih (id+1) (kT (run a ops).numNodes e) (by omega) (by
        intro p' e' b' s1' hle'
        rcases Nat.lt_or_ge (kT (run a ops).numNodes e') (kT (run a ops).numNodes e) with hl | hl
        · exfalso
          have h3 := slot_lt (key := kT (run a ops).numNodes) s1'
          have := start_mono (kT (run a ops).numNodes) (run a ops).edges
            (j := kT (run a ops).numNodes e' + 1) (k := kT (run a ops).numNodes e) (by omega)
          omega
        · exact hl)
      refine ⟨((kT (run a ops).numNodes e : Int), e.head) :: l, ?_, by simp [j2], ?_⟩
      · simp only [iterGo, hadv, ok_bind, rd_ok hhd, j1, pure_eq_ok]
      · intro p' e' b' s1' hle'
        rcases Nat.eq_or_lt_of_le hle' with heq | hlt'
        · have hlen := slot_inj (key := kT (run a ops).numNodes) s1 s1' (by omega)
          have hee : e = e' := by
            have q1 := split_getElem? s1
            have q2 := split_getElem? s1'
            rw [hlen] at q1
            exact Option.some.inj (q1.symm.trans q2)
          subst hee
          rw [← heq, Nat.sub_self]
          simp [kT_pos (n := (run a ops).numNodes) (hpos' e he)]
        · have := j3 p' e' b' s1' hlt'
          have hsub : slot (kT (run a ops).numNodes) (run a ops).edges p' e' - id =
            (slot (kT (run a ops).numNodes) (run a ops).edges p' e' - (id + 1)) + 1 := by omega
          rw [hsub]
          simpa using this
  obtain ⟨l, j1, j2, j3⟩ := go c.numEdges 0 0 (by omega) (by intros; omega)
  refine ⟨c, l, h1, j1, by rw [j2, hne, run_edges], ?_⟩
  intro nr e he
  rw [← run_edges] at he ⊢
  obtain ⟨s1, l1⟩ := getElem?_split he
  have h5 := j3 _ _ _ s1 (Nat.zero_le _)
  have hs := specId_eq (fun e he => (hw.bnd e he).1) s1
  rw [l1] at hs
  rw [hs]; simpa using h5

/-! ## C05: edge queries -/

theorem any_filter_map {l : List Edge} (t h : Int) :
    ((l.filter fun e => e.tail == t).map (·.head)).any (· == h) = decide ((⟨t, h⟩ : Edge) ∈ l) := by
  rw [Bool.eq_iff_iff]
  simp only [List.any_map, List.any_filter, decide_eq_true_eq, List.any_eq_true, Function.comp]
  constructor
  · rintro ⟨e, he, h1⟩
    simp at h1
    obtain ⟨rfl, rfl⟩ := h1
    exact he
  · intro he; exact ⟨_, he, by simp⟩

theorem any_filter_map' {l : List Edge} (t h : Int) :
    ((l.filter fun e => e.head == h).map (·.tail)).any (· == t) = decide ((⟨t, h⟩ : Edge) ∈ l) := by
  rw [Bool.eq_iff_iff]
  simp only [List.any_map, List.any_filter, decide_eq_true_eq, List.any_eq_true, Function.comp]
  constructor
  · rintro ⟨e, he, h1⟩
    simp at h1
    obtain ⟨rfl, rfl⟩ := h1
    exact he
  · intro he; exact ⟨_, he, by simp⟩

/-- C05 (a): `has_edge(t, h)` is true iff the edge `(t, h)` was added (two-way graphs also for negative
tails; the doubly-dangling query raises `EdgeDoesNotExistError`). -/
theorem C05_hasEdge (a : Bool) (ops : List Op) (junk : Nat → Int) (tw tr al : Bool)
    (hcomp : Compressible (accepted a ops) tw al) :
    ∃ c, (run a ops).compressed junk tw tr al = .ok c ∧ ∀ t h : Int,
      c.hasEdge t h =
        if t ≥ (run a ops).numNodes ∨ h ≥ (run a ops).numNodes then .error .nodeDoesNotExist
        else if 0 ≤ t then .ok (decide ((⟨t, h⟩ : Edge) ∈ accepted a ops))
        else if tw = false then .error .disabledFeature
        else if h < 0 then .error .edgeDoesNotExist
        else .ok (decide ((⟨t, h⟩ : Edge) ∈ accepted a ops)) := by
  obtain ⟨c, h1, hc⟩ := compress a ops junk tw tr al hcomp
  refine ⟨c, h1, fun t h => ?_⟩
  unfold CGraph.hasEdge
  rw [hc.nn]
  split
  · rfl
  · next hn =>
    split
    · next ht =>
      obtain ⟨k, rfl⟩ := Int.eq_ofNat_of_zero_le ht
      have hk : k < (run a ops).numNodes := by omega
      have e1 := hc.rd_hidx (t := k) (by omega)
      have e2 := hc.rd_hidx (t := k+1) (by omega)
      simp only [Int.natCast_add, Int.cast_ofNat_Int] at e2
      rw [← run_edges]
      simp only [e1, e2, ok_bind, hc.slice_heads hk, pure_eq_ok, any_filter_map]
    · next ht =>
      rw [hc.tw_eq]
      cases tw with
      | false => simp
      | true =>
        simp only [not_true_eq_false, if_false, Bool.true_eq_false]
        split
        · rfl
        · next hh =>
          obtain ⟨k, rfl⟩ := Int.eq_ofNat_of_zero_le (by omega : 0 ≤ h)
          have hk : k < (run a ops).numNodes := by omega
          have e1 := hc.rd_tidx rfl (t := k) (by omega)
          have e2 := hc.rd_tidx rfl (t := k+1) (by omega)
          simp only [Int.natCast_add, Int.cast_ofNat_Int] at e2
          rw [← run_edges]
          simp only [e1, e2, ok_bind, hc.slice_tails rfl hk, pure_eq_ok, any_filter_map']

theorem numbersOf_filter (p q : Edge → Bool) (l : List Edge) (g : Nat → Int)
    (hg : ∀ a e b, l = a ++ e :: b → (q e = true ↔ True ∧ q e = true)) (f : Nat → Bool)
    (hf : ∀ a e b, l = a ++ e :: b → f a.length = q e) :
    ((numbersOf p l).filter f).map g = (numbersOf (fun e => p e && q e) l).map g := by
  congr 1
  induction l using snoc_induction with
  | nil => rfl
  | snoc l x ih =>
    rw [numbersOf_snoc, numbersOf_snoc, List.filter_append,
      ih (fun _ _ _ _ => by simp) (fun a e b h => hf a e (b ++ [x]) (by simp [h]))]
    congr 1
    have := hf l x [] (by simp)
    by_cases hp : p x = true <;> by_cases hq : q x = true <;> simp [hp, hq, this]

/-- The IDs of all edges `(t, h)`, in order of addition. -/
def idsOf (es : List Edge) (t h : Int) : List Int :=
  (numbersOf (fun e => decide (e = ⟨t, h⟩)) es).map fun i => (specId es i : Int)

theorem numbersOf_congr {p q : Edge → Bool} (h : ∀ e, p e = q e) (l) : numbersOf p l = numbersOf q l := by
  congr 1; funext e; exact h e

theorem find?_eq_head?_filter {α : Type} (p : α → Bool) (l : List α) : l.find? p = (l.filter p).head? := by
  induction l with
  | nil => rfl
  | cons x l ih =>
    by_cases h : p x = true
    · simp [h]
    · simp only [List.find?_cons, h, List.filter_cons]; exact ih

theorem scan_tail {g : Graph} {tw tr : Bool} {c : CGraph} (hw : WF g) (hc : Compressed g tw tr c) {k : Nat}
    (hk : k < g.numNodes) (h : Int) :
    ∃ ps, indexed c.heads (start (kT g.numNodes) g.edges k : Int) (start (kT g.numNodes) g.edges (k+1) : Int)
      = .ok ps ∧ (ps.filter (·.2 == h)).map (·.1) = idsOf g.edges k h := by
  refine ⟨_, indexed_bucket hc.heads k (fun e _ h => Or.inl (bucket_nonneg hk h))
    (fun i => ((g.edges[i]?).map (·.head)).getD 0) (fun i => (specId g.edges i : Int))
    (fun a e b h _ => by simp [split_getElem? h])
    (fun a e b h _ => by rw [specId_eq (fun e he => (hw.bnd e he).1) h]), ?_⟩
  rw [List.filter_map, List.map_map]
  show List.map (fun i => (specId g.edges i : Int)) (List.filter _ _) = _
  rw [numbersOf_filter _ (fun e => e.head == h) _ _ (fun _ _ _ _ => by simp) _
    (fun a e b hs => by simp [split_getElem? hs])]
  unfold idsOf
  congr 1
  apply numbersOf_congr
  intro e
  rw [tailKey' hk]
  rcases e with ⟨et, eh⟩
  by_cases c1 : et = (k : Int) <;> by_cases c2 : eh = h <;> simp [c1, c2]

theorem scan_head {g : Graph} {tr : Bool} {c : CGraph} (hw : WF g) (hc : Compressed g true tr c) {k : Nat}
    (hk : k < g.numNodes) (t : Int) :
    ∃ ps, indexed c.tails (start (kH g.numNodes) g.edges k : Int) (start (kH g.numNodes) g.edges (k+1) : Int)
      = .ok ps ∧ ((ps.filter (·.2 == t)).map (·.1)).mapM (rd c.edgeIds) = .ok (idsOf g.edges t k) := by
  -- position of an edge in the array of incoming edges, by its number
  let s : Nat → Int := fun i => match g.edges[i]? with
    | some e => (slot (kH g.numNodes) g.edges (g.edges.take i) e : Int)
    | none => 0
  have hs : ∀ a e b, g.edges = a ++ e :: b → (slot (kH g.numNodes) g.edges a e : Int) = s a.length := by
    intro a e b h; simp [s, split_getElem? h, split_take h]
  refine ⟨_, indexed_bucket (hc.tails rfl) k (fun e _ h => bucket_nonneg' hk h)
    (fun i => ((g.edges[i]?).map (·.tail)).getD 0) s
    (fun a e b h _ => by simp [split_getElem? h]) (fun a e b h _ => hs a e b h), ?_⟩
  rw [List.filter_map, List.map_map]
  show List.mapM _ (List.map s (List.filter _ _)) = _
  rw [numbersOf_filter _ (fun e => e.tail == t) _ _ (fun _ _ _ _ => by simp) _
    (fun a e b hs => by simp [split_getElem? hs])]
  have hcongr : numbersOf (fun e => kH g.numNodes e == k && e.tail == t) g.edges =
      numbersOf (fun e => decide (e = ⟨t, k⟩)) g.edges := by
    apply numbersOf_congr
    intro e
    rw [headKey hk]
    rcases e with ⟨et, eh⟩
    by_cases c1 : et = t <;> by_cases c2 : eh = (k : Int) <;> simp [c1, c2]
  rw [hcongr]
  have hmem : ∀ i ∈ numbersOf (fun e => decide (e = ⟨t, (k : Int)⟩)) g.edges,
      rd c.edgeIds (s i) = .ok (specId g.edges i : Int) := by
    intro i hi
    obtain ⟨e, he, hp⟩ := mem_numbersOf.mp hi
    obtain ⟨s1, l1⟩ := getElem?_split he
    have hhd : 0 ≤ e.head := by have : e = ⟨t, (k : Int)⟩ := by simpa using hp
                                rw [this]; simp
    have h3 := hc.eids rfl _ _ _ s1 hhd
    rw [Compressed.eid_specId hw s1 (Or.inr rfl)] at h3
    have h4 := hs _ _ _ s1
    rw [l1] at h3 h4
    rw [← h4]
    exact rd_ok h3
  unfold idsOf
  generalize numbersOf (fun e => decide (e = ⟨t, (k : Int)⟩)) g.edges = L at hmem
  induction L with
  | nil => rfl
  | cons i L ih =>
    simp only [List.map_cons, List.mapM_cons, hmem i (by simp), ok_bind,
      ih (fun j hj => hmem j (by simp [hj])), pure_eq_ok]

/-- C05 (b): `all_edge_ids(t, h)` lists exactly the IDs of the edges `(t, h)` (in order of addition);
`first_edge_id(t, h)` is the first of them and raises `EdgeDoesNotExistError` iff there is none.
The case of a negative tail together with a negative head is excluded (see `C05_doubly_dangling`). -/
theorem C05_edgeIds (a : Bool) (ops : List Op) (junk : Nat → Int) (tw tr al : Bool)
    (hcomp : Compressible (accepted a ops) tw al) :
    ∃ c, (run a ops).compressed junk tw tr al = .ok c ∧ ∀ t h : Int, (0 ≤ t ∨ 0 ≤ h) →
      (c.allEdgeIds t h =
        if t ≥ (run a ops).numNodes ∨ h ≥ (run a ops).numNodes then .error .nodeDoesNotExist
        else if t < 0 ∧ tw = false then .error .disabledFeature
        else .ok (idsOf (accepted a ops) t h)) ∧
      (c.firstEdgeId t h =
        if t ≥ (run a ops).numNodes ∨ h ≥ (run a ops).numNodes then .error .nodeDoesNotExist
        else if t < 0 ∧ tw = false then .error .disabledFeature
        else match (idsOf (accepted a ops) t h).head? with
          | some id => .ok id
          | none => .error .edgeDoesNotExist) := by
  obtain ⟨c, h1, hc⟩ := compress a ops junk tw tr al hcomp
  have hw := run_wf a ops
  refine ⟨c, h1, fun t h hth => ?_⟩
  rw [← run_edges]
  unfold CGraph.allEdgeIds CGraph.firstEdgeId
  rw [hc.nn]
  by_cases hn : t ≥ ((run a ops).numNodes : Int) ∨ h ≥ ((run a ops).numNodes : Int)
  · simp only [hn, if_true]; exact ⟨trivial, trivial⟩
  · simp only [hn, if_false]
    by_cases ht : 0 ≤ t
    · rw [if_pos ht, if_pos ht, if_neg (by omega), if_neg (by omega)]
      obtain ⟨k, rfl⟩ := Int.eq_ofNat_of_zero_le ht
      have hk : k < (run a ops).numNodes := by omega
      have e1 := hc.rd_hidx (t := k) (by omega)
      have e2 := hc.rd_hidx (t := k+1) (by omega)
      simp only [Int.natCast_add, Int.cast_ofNat_Int] at e2
      obtain ⟨ps, q1, q2⟩ := scan_tail hw hc hk h
      simp only [e1, e2, ok_bind, q1, pure_eq_ok, q2, true_and]
      rw [← q2, find?_eq_head?_filter]
      cases List.filter (fun x => x.2 == h) ps <;> rfl
    · rw [if_neg ht, if_neg ht, hc.tw_eq]
      cases tw with
      | false => simp; omega
      | true =>
        have hh : 0 ≤ h := by omega
        simp only [not_true_eq_false, if_false, Bool.true_eq_false, and_false]
        obtain ⟨k, rfl⟩ := Int.eq_ofNat_of_zero_le hh
        have hk : k < (run a ops).numNodes := by omega
        have e1 := hc.rd_tidx rfl (t := k) (by omega)
        have e2 := hc.rd_tidx rfl (t := k+1) (by omega)
        simp only [Int.natCast_add, Int.cast_ofNat_Int] at e2
        obtain ⟨ps, q1, q2⟩ := scan_head hw hc hk t
        simp only [e1, e2, ok_bind, q1, q2, true_and]
        rw [find?_eq_head?_filter]
        cases hps : List.filter (fun x => x.2 == t) ps with
        | nil =>
          simp only [hps, List.map_nil, List.mapM_nil, pure_eq_ok, Except.ok.injEq] at q2
          simp [← q2]
        | cons x xs =>
          simp only [hps, List.map_cons, List.mapM_cons] at q2
          cases hx : rd c.edgeIds x.1 with
          | error e => simp [hx] at q2
          | ok v =>
            simp only [hx, ok_bind] at q2
            cases hxs : List.mapM (rd c.edgeIds) (List.map (fun x => x.fst) xs) with
            | error e => simp [hxs] at q2
            | ok vs => simp [hxs] at q2; simp [← q2, hx]

/-- Within one tail, IDs increase with the edge number, so `idsOf` (for `t ≥ 0`) is strictly increasing
and `first_edge_id` returns the smallest ID. -/
theorem C05_idsOf_increasing (a : Bool) (ops : List Op) (t h : Int) :
    (idsOf (accepted a ops) t h).Pairwise (· < ·) := by
  unfold idsOf
  rw [List.pairwise_map]
  have hb : ∀ e ∈ accepted a ops, e.tail < (run a ops).numNodes := fun e he => (C07_nodes a ops e he).1
  have hinc : (numbersOf (fun e => decide (e = ⟨t, h⟩)) (accepted a ops)).Pairwise (· < ·) :=
    List.Pairwise.filter _ List.pairwise_lt_range
  refine List.Pairwise.imp_of_mem ?_ hinc
  intro i j hi hj hij
  obtain ⟨e, he, hp⟩ := mem_numbersOf.mp hi
  obtain ⟨e', he', hp'⟩ := mem_numbersOf.mp hj
  have hee : e = e' := by simp at hp hp'; rw [hp, hp']
  subst hee
  obtain ⟨s1, l1⟩ := getElem?_split he
  obtain ⟨s2, l2⟩ := getElem?_split he'
  have q1 := specId_eq hb s1
  have q2 := specId_eq hb s2
  rw [l1] at q1; rw [l2] at q2
  rw [q1, q2]
  simp only [slot]
  have : (accepted a ops).take j = (accepted a ops).take i ++ e :: ((accepted a ops).take j).drop (i+1) := by
    have h5 : ((accepted a ops).take j)[i]? = some e := by rw [List.getElem?_take]; simp [hij, he]
    have := (getElem?_split h5).1
    rwa [List.take_take, Nat.min_eq_left (by omega)] at this
  rw [this, cnt_append, cnt_cons]
  simp; omega

/-- The memory error of `first_edge_id`/`all_edge_ids`: with a negative tail *and* a negative head in a
two-way graph, both read outside of an array (`tails_idxs[head]` with `head < 0`), for every graph that
has at least one node. -/
theorem C05_doubly_dangling (a : Bool) (ops : List Op) (junk : Nat → Int) (tr al : Bool) :
    ∃ c, (run a ops).compressed junk true tr al = .ok c ∧ ∀ t h : Int, t < 0 → h < 0 →
      c.allEdgeIds t h = .error .outOfBounds ∧ c.firstEdgeId t h = .error .outOfBounds := by
  obtain ⟨c, h1, hc⟩ := compress a ops junk true tr al (Or.inl rfl)
  refine ⟨c, h1, fun t h ht hh => ?_⟩
  unfold CGraph.allEdgeIds CGraph.firstEdgeId
  have k1 : ¬ (t ≥ ((run a ops).numNodes : Int) ∨ h ≥ ((run a ops).numNodes : Int)) := by omega
  have k2 : ¬ t ≥ 0 := by omega
  simp only [hc.nn, hc.tw_eq, k1, k2, if_false, not_true_eq_false, rd, show ¬ 0 ≤ h by omega, error_bind,
    and_self]

/-! ## C06: the tail of an edge -/

theorem tailSearch_ok {idxs : Mem} {n : Nat} {f : Nat → Nat} (hmono : ∀ i j, i ≤ j → f i ≤ f j)
    (hf : ∀ t ≤ n, idxs[t]? = some (f t : Int)) (id k : Nat) (hk : f k ≤ id) (hk' : id < f (k+1))
    (d lower upper : Nat) (hd : upper - lower = d) (hu : upper ≤ n) (hl : lower ≤ k) (hku : k < upper)  :
    ∃ t, tailSearch idxs id lower upper = .ok t ∧ t ≤ k ∧ (t = k ∨ f t = id) := by
  induction d using Nat.strongRecOn generalizing lower upper with
  | ind d ih =>
    unfold tailSearch
    by_cases hgt : upper - lower > 1
    · rw [dif_pos hgt]
      have hm : (upper + lower) / 2 ≤ n := by omega
      have := rd_ok (hf _ hm)
      simp only [this]
      by_cases he : (id : Int) = (f ((upper + lower) / 2) : Int)
      · rw [if_pos he]
        refine ⟨_, rfl, ?_, Or.inr (by omega)⟩
        rcases Nat.lt_or_ge k ((upper + lower) / 2) with hlt | hge
        · have := hmono (k+1) ((upper + lower) / 2) (by omega); omega
        · exact hge
      · rw [if_neg he]
        by_cases hlt : (id : Int) < (f ((upper + lower) / 2) : Int)
        · rw [if_pos hlt]
          refine ih ((upper + lower) / 2 - lower) (by omega) lower _ rfl (by omega) hl ?_
          rcases Nat.lt_or_ge k ((upper + lower) / 2) with h | h
          · exact h
          · have := hmono _ _ h; omega
        · rw [if_neg hlt]
          refine ih (upper - (upper + lower) / 2) (by omega) _ upper rfl hu ?_ hku
          rcases Nat.lt_or_ge k ((upper + lower) / 2) with h | h
          · have := hmono (k+1) ((upper + lower) / 2) (by omega); omega
          · exact h
    · rw [dif_neg hgt]
      exact ⟨lower, rfl, by omega, Or.inl (by omega)⟩

/-- C06, proved part.  Full statement: `tail(id)` returns the tail of the edge with this ID.  Proved: it
returns `None` for negative tails, and for an edge with non-negative tail a node `t` that is its tail,
*unless* the edge is the first of its tail and all nodes from `t` up to the tail (exclusive) have no
outgoing edges.  Missing: exactly that excluded case, where the code is wrong (`C06_counterexample`). -/
theorem C06_tail_partial (a : Bool) (ops : List Op) (junk : Nat → Int) (tw tr al : Bool)
    (hcomp : Compressible (accepted a ops) tw al) :
    ∃ c, (run a ops).compressed junk tw tr al = .ok c ∧
      ∀ (nr : Nat) (e : Edge), (accepted a ops)[nr]? = some e → Representable tw e →
        (e.tail < 0 → c.tail (specId (accepted a ops) nr) = .ok none) ∧
        (0 ≤ e.tail → ∃ t : Nat, c.tail (specId (accepted a ops) nr) = .ok (some t) ∧ t ≤ e.tail ∧
          ((t : Int) = e.tail ∨
            ((∀ e' ∈ (accepted a ops).take nr, e'.tail ≠ e.tail) ∧
              ∀ e' ∈ accepted a ops, ¬ ((t : Int) ≤ e'.tail ∧ e'.tail < e.tail)))) := by
  obtain ⟨c, h1, hc⟩ := compress a ops junk tw tr al hcomp
  have hw := run_wf a ops
  refine ⟨c, h1, fun nr e he hr => ?_⟩
  rw [← run_edges] at he ⊢
  obtain ⟨s1, l1⟩ := getElem?_split he
  have hlt := specId_lt hw hc s1 hr
  have hs := specId_eq (fun e he => (hw.bnd e he).1) s1
  rw [l1] at hs hlt
  have hmem : e ∈ (run a ops).edges := by rw [s1]; simp
  constructor
  · intro hneg
    have htw : tw = true := by rcases hr with h | h; omega; exact h
    subst htw
    unfold CGraph.tail
    rw [if_neg (by omega), hc.px, if_pos, hc.tw_eq]
    · simp
    · rw [hs]; simp [slot, kT_neg (n := (run a ops).numNodes) (by omega : ¬ 0 ≤ e.tail)]; omega
  · intro hpos
    have hk := hw.kT_lt hmem hpos
    have hkt := kT_pos (n := (run a ops).numNodes) hpos
    have hsl := slot_lt (key := kT (run a ops).numNodes) s1
    have hm := start_mono (kT (run a ops).numNodes) (run a ops).edges
      (j := kT (run a ops).numNodes e + 1) (k := (run a ops).numNodes) (by omega)
    obtain ⟨t, t1, t2, t3⟩ := tailSearch_ok
      (f := start (kT (run a ops).numNodes) (run a ops).edges)
      (fun i j h => start_mono _ _ h) hc.hidx (specId (run a ops).edges nr) (kT (run a ops).numNodes e)
      (by rw [hs]; simp [slot]) (by omega) _ 0 (run a ops).numNodes rfl (Nat.le_refl _) (by omega) hk
    refine ⟨t, ?_, by omega, ?_⟩
    · unfold CGraph.tail
      rw [if_neg (by omega), hc.px, if_neg (by omega), hc.nn, t1]
      rfl
    · rcases t3 with t3 | t3
      · left; omega
      · by_cases heq : t = kT (run a ops).numNodes e
        · left; omega
        right
        have hst := start_mono (kT (run a ops).numNodes) (run a ops).edges
          (j := t + 1) (k := kT (run a ops).numNodes e) (by omega)
        have hst2 := start_mono (kT (run a ops).numNodes) (run a ops).edges
          (j := t) (k := t + 1) (by omega)
        rw [hs] at t3
        simp only [slot] at t3
        have hcnt : cnt (kT (run a ops).numNodes) (List.take nr (run a ops).edges)
          (kT (run a ops).numNodes e) = 0 := by omega
        have hse : start (kT (run a ops).numNodes) (run a ops).edges t =
          start (kT (run a ops).numNodes) (run a ops).edges (kT (run a ops).numNodes e) := by omega
        constructor
        · intro e' he' heq'
          rw [cnt, List.length_eq_zero_iff, List.filter_eq_nil_iff] at hcnt
          have := hcnt e' he'
          simp only [beq_iff_eq] at this
          apply this
          have := kT_pos (n := (run a ops).numNodes) (e := e') (by omega)
          omega
        · intro e' he' ⟨q1, q2⟩
          have hk' := kT_pos (n := (run a ops).numNodes) (e := e') (by omega)
          have m1 := start_mono (kT (run a ops).numNodes) (run a ops).edges
            (j := t) (k := kT (run a ops).numNodes e') (by omega)
          have m2 := start_mono (kT (run a ops).numNodes) (run a ops).edges
            (j := kT (run a ops).numNodes e' + 1) (k := kT (run a ops).numNodes e) (by omega)
          rw [start_succ] at m2
          have : 0 < cnt (kT (run a ops).numNodes) (run a ops).edges (kT (run a ops).numNodes e') := by
            rw [cnt, List.length_pos_iff_exists_mem]
            exact ⟨e', by simp [he']⟩
          omega

/-- C06, immediate consequence: if every node below the tail of some edge has an outgoing edge, `tail` is
right for every edge. -/
theorem C06_tail_no_empty_partial (a : Bool) (ops : List Op) (junk : Nat → Int) (tw tr al : Bool)
    (hcomp : Compressible (accepted a ops) tw al)
    (hfull : ∀ e ∈ accepted a ops, ∀ t : Int, 0 ≤ t → t < e.tail → ∃ e' ∈ accepted a ops, e'.tail = t) :
    ∃ c, (run a ops).compressed junk tw tr al = .ok c ∧
      ∀ (nr : Nat) (e : Edge), (accepted a ops)[nr]? = some e → 0 ≤ e.tail →
        c.tail (specId (accepted a ops) nr) = .ok (some e.tail.toNat) := by
  obtain ⟨c, h1, h2⟩ := C06_tail_partial a ops junk tw tr al hcomp
  refine ⟨c, h1, fun nr e he hpos => ?_⟩
  obtain ⟨t, q1, q2, q3⟩ := (h2 nr e he (Or.inl hpos)).2 hpos
  rcases q3 with q3 | ⟨_, q4⟩
  · rw [q1]; congr; omega
  · rcases Int.lt_or_le (t : Int) e.tail with hlt | hge
    · obtain ⟨e', m1, m2⟩ := hfull e (List.mem_of_getElem? he) t (by omega) hlt
      exact absurd ⟨by omega, by omega⟩ (q4 e' m1)
    · rw [q1]; congr; omega

/-- C06 is false of the code: after adding the edges (0,0) and (2,0) — node 1 has no outgoing edges — the
edge (2,0) has ID 1 but `tail(1)` returns 1. -/
theorem C06_counterexample : ∃ c, (run false [.addEdge 0 0, .addEdge 2 0]).compressed (fun _ => 7) false
      false false = .ok c ∧
    specId (accepted false [.addEdge 0 0, .addEdge 2 0]) 1 = 1 ∧
    (accepted false [.addEdge 0 0, .addEdge 2 0])[1]? = some ⟨2, 0⟩ ∧
    c.tail 1 = .ok (some 1) := by
  refine ⟨_, rfl, by decide, by decide, ?_⟩
  unfold CGraph.tail
  rw [if_neg (by decide), if_neg (by decide)]
  have : tailSearch [0, 1, 1, 2] 1 0 3 = .ok 1 := by
    unfold tailSearch; rfl
  exact congrArg (· >>= fun t => Except.ok (some t)) this

/-! ## C08: pickling -/

/-- C08: `__setstate__(__getstate__())` reproduces the compressed graph: all members that queries depend on
are equal.  (Hence every query answers identically.) -/
theorem C08_pickle (a : Bool) (ops : List Op) (junk junk' : Nat → Int) (tw tr al : Bool)
    (hcomp : Compressible (accepted a ops) tw al) :
    ∃ c, (run a ops).compressed junk tw tr al = .ok c ∧ CGraph.setstate junk' c.getstate = .ok c := by
  obtain ⟨c, h1, hc⟩ := compress a ops junk tw tr al hcomp
  refine ⟨c, h1, ?_⟩
  have hw := run_wf a ops
  obtain ⟨n1, n2, n3, n4⟩ := hw.counts
  have e1 := hc.px
  have e2 := hc.xp
  have e3 := hc.nrEnd
  have e4 := hc.ne
  have l1 := hc.hidx_len
  have l2 := hc.heads_len
  have l3 := hc.tidx_len
  have l4 := hc.tails_len
  have l5 := hc.eids_len
  have l6 := hc.nr_len
  have e5 := hc.nn
  have e6 := hc.tw_eq
  have e7 := hc.tr_eq
  have hpp : c.getstate.numPP = ((run a ops).numPP : Int) := by
    simp only [CGraph.getstate, e6, e2, e3, e1]; cases tw <;> simp <;> omega
  have hnp : c.getstate.numNP = ((run a ops).numNP : Int) := by
    simp only [CGraph.getstate, e3, e1]; omega
  have hpn : c.getstate.numPN = ((run a ops).numPN : Int) := by
    have : c.getstate.numPN = (c.numPX : Int) - c.getstate.numPP := rfl
    rw [this, hpp, e1]; omega
  have hnn : c.getstate.numNodes = (c.numNodes : Int) := rfl
  unfold CGraph.setstate
  rw [hpp, hpn, hnp, hnn, if_neg (by omega)]
  simp only [Int.toNat_natCast]
  rcases c with ⟨ctw, ctr, cnn, cne, cpx, cxp, chi, chd, cti, cta, cei, cby, cend⟩
  simp only at l1 l2 l3 l4 l5 l6 e1 e2 e3 e4 e5 e6 e7
  subst e6 e7 e5 e1 e2 e3 e4
  have z : ∀ l : Mem, l.length = 0 → [] = l := fun l h => (List.length_eq_zero_iff.mp h).symm
  clear hpp hnp hpn hnn h1 hc n4 n2
  rw [← n1] at *
  rw [← n3] at *
  rw [if_pos]
  · cases ctw <;> cases ctr <;>
      simp only [CGraph.getstate, CGraph.init, Bool.false_eq_true, if_false, if_true] at * <;>
      congr 2 <;> first | exact z _ (by assumption) | rfl
  · cases ctw <;> cases ctr <;>
      simp_all [CGraph.getstate, CGraph.init]

/-! ## Non-vacuity: a history with multi-edges, dangling edges, rejected operations and empty nodes -/

/-- A non-trivial history. -/
def exampleOps : List Op :=
  [.addEdge 3 0, .addEdge 0 1, .addEdge (-1) 2, .addEdge 0 (-4), .addEdge (-2) (-1), .setNumNodes 7,
   .setNumNodes 2, .addEdge 0 1, .addEdge 3 3]

example : accepted true exampleOps = [⟨3, 0⟩, ⟨0, 1⟩, ⟨-1, 2⟩, ⟨0, -4⟩, ⟨0, 1⟩, ⟨3, 3⟩] := by decide
example : Compressible (accepted true exampleOps) true false := Or.inl rfl
example : ¬ Compressible (accepted true exampleOps) false false := by
  unfold Compressible; decide
example : Compressible (accepted false exampleOps) false false := by
  unfold Compressible; decide
example : idsOf (accepted true exampleOps) 0 1 = [0, 2] := by decide
example : ∀ e ∈ accepted false exampleOps, 0 ≤ e.tail := by decide
/-- The hypothesis of `C06_tail_no_empty_partial` is satisfiable. -/
example : ∀ e ∈ accepted false [.addEdge 0 1, .addEdge 1 0, .addEdge 1 1],
    ∀ t : Int, 0 ≤ t → t < e.tail →
      ∃ e' ∈ accepted false [.addEdge 0 1, .addEdge 1 0, .addEdge 1 1], e'.tail = t := by
  intro e he t h0 h1
  have : e.tail ≤ 1 := by clear h1; revert e; decide
  have : t = 0 := by omega
  subst this; exact ⟨⟨0, 1⟩, by decide, rfl⟩

end Kwant.Graph
