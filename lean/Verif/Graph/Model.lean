/-
Model of `kwant/graph/core.pyx` (class `Graph`, `CGraph`, `CGraph_malloc`, `EdgeIterator`).

Conventions
* C arrays are lists of integers of exactly the allocated length.  Every read and write of an array
  goes through `rd` / `wr`, which yield `GErr.outOfBounds` when the index is not inside the allocated
  memory (undefined behaviour in C).  Absence of undefined behaviour is therefore part of every
  theorem that says a query or a compression returns `ok`.
* Freshly allocated memory has arbitrary contents (`junk`).
* Python exceptions are values of `GErr`.
* Not modelled: overflow of the C type `gint`, failure of `malloc`/`realloc`, the growth policy
  (`reserve`, `capacity`) of the edge buffer (the edge buffer is a list).
-/

namespace Kwant.Graph

/-- The exceptions raised by `core.pyx` (`ValueError` l.99-104, l.197-199; the three classes l.312-321)
and, additionally, an access outside of an array (undefined behaviour in C). -/
inductive GErr where
  | valueError
  | disabledFeature
  | nodeDoesNotExist
  | edgeDoesNotExist
  | assertion
  | outOfBounds
  deriving DecidableEq, Repr

/-- `cdef struct Edge` (core.pxd l.13-14). -/
structure Edge where
  tail : Int
  head : Int
  deriving DecidableEq, Repr

/-- State of a `Graph` (core.pxd l.16-20).  `edges` is the buffer `edges[:size]`; `size` is its length.
Simplification: `capacity` is dropped. -/
structure Graph where
  allowNeg : Bool
  edges : List Edge
  numNodes : Nat
  numPP : Nat
  numPN : Nat
  numNP : Nat
  deriving DecidableEq, Repr

/-- `Graph.__init__` (core.pyx l.42-43; the other fields are zero-initialised by Cython). -/
def Graph.new (allowNeg : Bool) : Graph := ⟨allowNeg, [], 0, 0, 0, 0⟩

/-- Setter of `Graph.num_nodes` (core.pyx l.48-55).  New state and outcome. -/
def Graph.setNumNodes (g : Graph) (value : Int) : Graph × Except GErr Unit :=
  if value < g.numNodes then (g, .error .valueError)
  else ({ g with numNodes := value.toNat }, .ok ())

/-- The tail end of `Graph.add_edge` (core.pyx l.112-120), after the counters have been updated. -/
def Graph.push (g : Graph) (tail head : Int) : Graph × Except GErr Int :=
  let g' := { g with
    edges := g.edges ++ [⟨tail, head⟩]
    numNodes := max (max g.numNodes (tail + 1).toNat) (head + 1).toNat }
  (g', .ok ((g'.edges.length : Int) - 1))

/-- `Graph.add_edge` (core.pyx l.77-120).  New state and outcome (the sequential edge number). -/
def Graph.addEdge (g : Graph) (tail head : Int) : Graph × Except GErr Int :=
  if tail < 0 ∨ head < 0 then
    if ¬ g.allowNeg then (g, .error .valueError)
    else if tail < 0 ∧ head < 0 then (g, .error .valueError)
    else if head < 0 then Graph.push { g with numPN := g.numPN + 1 } tail head
    else Graph.push { g with numNP := g.numNP + 1 } tail head
  else Graph.push { g with numPP := g.numPP + 1 } tail head

/-- `Graph.add_edges` (core.pyx l.123-155; the ndarray variants l.157-165 run the same loop).  The loop
stops at the first rejected edge; the edges added before it stay. -/
def Graph.addEdges (g : Graph) : List (Int × Int) → Graph × Except GErr Int := fun es =>
  let rec go (g : Graph) : List (Int × Int) → Graph × Except GErr Unit
    | [] => (g, .ok ())
    | (t, h) :: es =>
      match g.addEdge t h with
      | (g', .error e) => (g', .error e)
      | (g', .ok _) => go g' es
  let first : Int := g.edges.length
  match go g es with
  | (g', .error e) => (g', .error e)
  | (g', .ok ()) => (g', .ok first)

/-! ### Memory -/

/-- A C array of `gint`. -/
abbrev Mem := List Int

/-- Read `a[i]`. -/
def rd (a : Mem) (i : Int) : Except GErr Int :=
  if 0 ≤ i then
    match a[i.toNat]? with
    | some v => .ok v
    | none => .error .outOfBounds
  else .error .outOfBounds

/-- Write `a[i] = v`. -/
def wr (a : Mem) (i : Int) (v : Int) : Except GErr Mem :=
  if 0 ≤ i ∧ i.toNat < a.length then .ok (a.set i.toNat v) else .error .outOfBounds

/-- Freshly allocated memory of `n` elements: arbitrary contents (`array.resize`, core.pyx l.673-699). -/
def alloc (junk : Nat → Int) (n : Nat) : Mem := (List.range n).map junk

/-- Members of a compressed graph (core.pxd l.30-46).  The arrays that are `None` when a feature is
disabled are empty lists; they are only accessed under the same flag as in the code. -/
structure CGraph where
  twoway : Bool
  edgeNrTranslation : Bool
  numNodes : Nat
  numEdges : Nat
  numPX : Nat
  numXP : Nat
  headsIdxs : Mem
  heads : Mem
  tailsIdxs : Mem
  tails : Mem
  edgeIds : Mem
  byNr : Mem
  edgeNrEnd : Nat
  deriving DecidableEq, Repr

/-- `CGraph_malloc.__init__` (core.pyx l.666-707).  Allocation never fails in the model. -/
def CGraph.init (junk : Nat → Int) (twoway edgeNrTranslation : Bool) (numNodes numPP numPN numNP : Nat) :
    CGraph :=
  let edgeNrEnd := numPP + numPN + numNP
  let numPX := numPP + numPN
  let numXP := if twoway then numPP + numNP else numPP
  let numEdges := if twoway then edgeNrEnd else numPX
  { twoway, edgeNrTranslation, numNodes, numEdges, numPX, numXP, edgeNrEnd
    headsIdxs := alloc junk (numNodes + 1)
    heads := alloc junk numEdges
    tailsIdxs := if twoway then alloc junk (numNodes + 1) else []
    tails := if twoway then alloc junk numXP else []
    edgeIds := if twoway then alloc junk numXP else []
    byNr := if edgeNrTranslation then alloc junk edgeNrEnd else [] }

/-! ### Compression -/

/-- `memset(idxs, 0, (num_nodes + 1) * sizeof(gint))` (core.pyx l.222-224): the first `n` entries are
zeroed.  (`n` is exactly the allocated size.) -/
def memset0 (a : Mem) (n : Nat) : Except GErr Mem :=
  if n ≤ a.length then .ok (List.replicate n 0 ++ a.drop n) else .error .outOfBounds

/-- `buf[i] += 1` where `buf = idxs + 1` (core.pyx l.207, l.209, l.227-229). -/
def incr (idxs : Mem) (i : Int) : Except GErr Mem := do
  let v ← rd idxs (i + 1)
  wr idxs (i + 1) (v + 1)

/-- `if edge.tail >= 0: hbuf[edge.tail] += 1` (core.pyx l.226-227). -/
def histTail (h : Mem) (e : Edge) : Except GErr Mem := if e.tail ≥ 0 then incr h e.tail else .ok h

/-- `if twoway and edge.head >= 0: tbuf[edge.head] += 1` (core.pyx l.228-229). -/
def histHead (twoway : Bool) (t : Mem) (e : Edge) : Except GErr Mem :=
  if twoway ∧ e.head ≥ 0 then incr t e.head else .ok t

/-- Histogram loop (core.pyx l.225-229). -/
def histStep (twoway : Bool) (st : Mem × Mem) (e : Edge) : Except GErr (Mem × Mem) := do
  let h ← histTail st.1 e
  let t ← histHead twoway st.2 e
  pure (h, t)

/-- Body of the "antiderivative" loops (core.pyx l.233-236 and l.240-243).  State: array and `s`. -/
def scanStep (st : Mem × Int) (i : Nat) : Except GErr (Mem × Int) := do
  let v ← rd st.1 ((i : Int) + 1)
  let s := st.2 + v
  let v' ← rd st.1 ((i : Int) + 1)
  let a ← wr st.1 ((i : Int) + 1) (s - v')
  pure (a, s)

/-- "Antiderivative" of one of the arrays. -/
def scan (a : Mem) (n : Nat) : Except GErr Mem := do
  let st ← (List.range n).foldlM scanStep (a, 0)
  pure st.1

/-- Variables of the main loop (core.pyx l.246-266). -/
structure FillSt where
  headsIdxs : Mem
  heads : Mem
  tailsIdxs : Mem
  tails : Mem
  edgeIds : Mem
  byNr : Mem
  nextNp : Int
  edgeNr : Int

/-- Body of the main loop (core.pyx l.248-266), part 1: choose the edge ID (l.249-257).
Yields the ID, the new `heads_idxs` and the new `next_np_edge_id`. -/
def chooseId (twoway : Bool) (idxs : Mem) (nextNp : Int) (e : Edge) : Except GErr (Int × Mem × Int) :=
  if e.tail ≥ 0 then do
    let id ← rd idxs (e.tail + 1)
    let h ← incr idxs e.tail
    pure (id, h, nextNp)
  else if twoway then
    if e.head ≥ 0 then pure (nextNp, idxs, nextNp + 1) else .error .assertion
  else pure (-1, idxs, nextNp)

/-- core.pyx l.258-259. -/
def storeHead (heads : Mem) (id : Int) (e : Edge) : Except GErr Mem :=
  if id ≥ 0 then wr heads id e.head else .ok heads

/-- core.pyx l.260-263.  Yields `tails_idxs`, `tails`, `edge_ids`. -/
def storeTail (twoway : Bool) (tailsIdxs tails edgeIds : Mem) (id : Int) (e : Edge) :
    Except GErr (Mem × Mem × Mem) :=
  if twoway ∧ e.head ≥ 0 then do
    let p ← rd tailsIdxs (e.head + 1)
    let ts ← wr tails p e.tail
    let ei ← wr edgeIds p id
    let ti ← incr tailsIdxs e.head
    pure (ti, ts, ei)
  else .ok (tailsIdxs, tails, edgeIds)

/-- core.pyx l.264-266.  Yields `edge_ids_by_edge_nr` and `edge_nr`. -/
def storeNr (edgeNrTranslation : Bool) (byNr : Mem) (edgeNr id : Int) : Except GErr (Mem × Int) :=
  if edgeNrTranslation then do
    let nr ← wr byNr edgeNr id
    pure (nr, edgeNr + 1)
  else .ok (byNr, edgeNr)

/-- Body of the main loop (core.pyx l.248-266). -/
def fillStep (twoway edgeNrTranslation : Bool) (st : FillSt) (e : Edge) : Except GErr FillSt := do
  let (id, h, np) ← chooseId twoway st.headsIdxs st.nextNp e
  let heads ← storeHead st.heads id e
  let (ti, ts, ei) ← storeTail twoway st.tailsIdxs st.tails st.edgeIds id e
  let (nr, en) ← storeNr edgeNrTranslation st.byNr st.edgeNr id
  pure { headsIdxs := h, heads := heads, tailsIdxs := ti, tails := ts, edgeIds := ei, byNr := nr,
         nextNp := np, edgeNr := en }

/-- `Graph.compressed` (core.pyx l.167-269). -/
def Graph.compressed (junk : Nat → Int) (g : Graph) (twoway edgeNrTranslation allowLost : Bool) :
    Except GErr CGraph :=
  if g.edges.length ≠ g.numPP + g.numPN + g.numNP then .error .assertion else
  if ¬ (twoway ∨ allowLost ∨ g.numNP = 0) then .error .valueError else do
  let r := CGraph.init junk twoway edgeNrTranslation g.numNodes g.numPP g.numPN g.numNP
  let h0 ← memset0 r.headsIdxs (g.numNodes + 1)
  let t0 ← (if twoway then memset0 r.tailsIdxs (g.numNodes + 1) else .ok r.tailsIdxs : Except GErr Mem)
  let (h1, t1) ← g.edges.foldlM (histStep twoway) (h0, t0)
  let h2 ← scan h1 g.numNodes
  let t2 ← (if twoway then scan t1 g.numNodes else .ok t1 : Except GErr Mem)
  let st ← g.edges.foldlM (fillStep twoway edgeNrTranslation)
    { headsIdxs := h2, heads := r.heads, tailsIdxs := t2, tails := r.tails, edgeIds := r.edgeIds,
      byNr := r.byNr, nextNp := r.numPX, edgeNr := 0 }
  -- core.pyx l.268: `assert result.num_edges == next_np_edge_id`
  if (r.numEdges : Int) ≠ st.nextNp then .error .assertion else
  pure { r with headsIdxs := st.headsIdxs, heads := st.heads, tailsIdxs := st.tailsIdxs,
                tails := st.tails, edgeIds := st.edgeIds, byNr := st.byNr }

/-! ### Queries -/

/-- Elements `a[lo], ..., a[hi-1]` (pointer slices as in core.pyx l.367-370; `gintArraySlice`
l.284-296): all of them must be inside the array. -/
def slice (a : Mem) (lo hi : Int) : Except GErr (List Int) :=
  (List.range (hi - lo).toNat).mapM fun (k : Nat) => rd a (lo + k)

/-- `CGraph.out_neighbors` (core.pyx l.350-370), read out as a list. -/
def CGraph.outNeighbors (c : CGraph) (node : Int) : Except GErr (List Int) :=
  if node < 0 ∨ node ≥ c.numNodes then .error .nodeDoesNotExist else do
  let lo ← rd c.headsIdxs node
  let hi ← rd c.headsIdxs (node + 1)
  slice c.heads lo hi

/-- `CGraph.out_edge_ids` (core.pyx l.372-389). -/
def CGraph.outEdgeIds (c : CGraph) (node : Int) : Except GErr (List Int) :=
  if node < 0 ∨ node ≥ c.numNodes then .error .nodeDoesNotExist else do
  let lo ← rd c.headsIdxs node
  let hi ← rd c.headsIdxs (node + 1)
  pure ((List.range (hi - lo).toNat).map fun (k : Nat) => lo + k)

/-- `CGraph.in_neighbors` (core.pyx l.391-415). -/
def CGraph.inNeighbors (c : CGraph) (node : Int) : Except GErr (List Int) :=
  if ¬ c.twoway then .error .disabledFeature else
  if node < 0 ∨ node ≥ c.numNodes then .error .nodeDoesNotExist else do
  let lo ← rd c.tailsIdxs node
  let hi ← rd c.tailsIdxs (node + 1)
  slice c.tails lo hi

/-- `CGraph.in_edge_ids` (core.pyx l.417-441). -/
def CGraph.inEdgeIds (c : CGraph) (node : Int) : Except GErr (List Int) :=
  if ¬ c.twoway then .error .disabledFeature else
  if node < 0 ∨ node ≥ c.numNodes then .error .nodeDoesNotExist else do
  let lo ← rd c.tailsIdxs node
  let hi ← rd c.tailsIdxs (node + 1)
  slice c.edgeIds lo hi

/-- `CGraph.has_edge` (core.pyx l.443-477). -/
def CGraph.hasEdge (c : CGraph) (tail head : Int) : Except GErr Bool :=
  if tail ≥ c.numNodes ∨ head ≥ c.numNodes then .error .nodeDoesNotExist else
  if tail ≥ 0 then do
    let lo ← rd c.headsIdxs tail
    let hi ← rd c.headsIdxs (tail + 1)
    let hs ← slice c.heads lo hi
    pure (hs.any (· == head))
  else
    if ¬ c.twoway then .error .disabledFeature else
    if head < 0 then .error .edgeDoesNotExist else do
    let lo ← rd c.tailsIdxs head
    let hi ← rd c.tailsIdxs (head + 1)
    let ts ← slice c.tails lo hi
    pure (ts.any (· == tail))

/-- `CGraph.edge_id` (core.pyx l.479-504). -/
def CGraph.edgeId (c : CGraph) (edgeNr : Int) : Except GErr Int :=
  if ¬ c.edgeNrTranslation then .error .disabledFeature else
  if edgeNr < 0 ∨ edgeNr ≥ c.edgeNrEnd then .error .edgeDoesNotExist else do
  let r ← rd c.byNr edgeNr
  if r < 0 then .error .edgeDoesNotExist else
  pure r

/-- The pairs `(index, key[index])` for `index in range(lo, hi)`. -/
def indexed (key : Mem) (lo hi : Int) : Except GErr (List (Int × Int)) :=
  (List.range (hi - lo).toNat).mapM fun (k : Nat) => do
    let v ← rd key (lo + k)
    pure (lo + k, v)

/-- `CGraph.all_edge_ids` (core.pyx l.545-580). -/
def CGraph.allEdgeIds (c : CGraph) (tail head : Int) : Except GErr (List Int) :=
  if tail ≥ c.numNodes ∨ head ≥ c.numNodes then .error .nodeDoesNotExist else
  if tail ≥ 0 then do
    let lo ← rd c.headsIdxs tail
    let hi ← rd c.headsIdxs (tail + 1)
    let ps ← indexed c.heads lo hi
    pure ((ps.filter (·.2 == head)).map (·.1))
  else
    if ¬ c.twoway then .error .disabledFeature else do
    let lo ← rd c.tailsIdxs head
    let hi ← rd c.tailsIdxs (head + 1)
    let ps ← indexed c.tails lo hi
    ((ps.filter (·.2 == tail)).map (·.1)).mapM (rd c.edgeIds)

/-- `CGraph.first_edge_id` (core.pyx l.506-543).  Simplification: the loop with an early `return` is the
first match of the whole scan; every index of the scan is read (more reads than the code does). -/
def CGraph.firstEdgeId (c : CGraph) (tail head : Int) : Except GErr Int :=
  if tail ≥ c.numNodes ∨ head ≥ c.numNodes then .error .nodeDoesNotExist else
  if tail ≥ 0 then do
    let lo ← rd c.headsIdxs tail
    let hi ← rd c.headsIdxs (tail + 1)
    let ps ← indexed c.heads lo hi
    match ps.find? (·.2 == head) with
    | some p => pure p.1
    | none => .error .edgeDoesNotExist
  else
    if ¬ c.twoway then .error .disabledFeature else do
    let lo ← rd c.tailsIdxs head
    let hi ← rd c.tailsIdxs (head + 1)
    let ps ← indexed c.tails lo hi
    match ps.find? (·.2 == tail) with
    | some p => rd c.edgeIds p.1
    | none => .error .edgeDoesNotExist

/-- The binary search of `CGraph.tail` (core.pyx l.611-620). -/
def tailSearch (idxs : Mem) (edgeId : Int) (lower upper : Nat) : Except GErr Nat :=
  if _h : upper - lower > 1 then
    let tail := (upper + lower) / 2
    match rd idxs tail with
    | .error e => .error e
    | .ok v =>
      if edgeId = v then .ok tail
      else if edgeId < v then tailSearch idxs edgeId lower tail
      else tailSearch idxs edgeId tail upper
  else .ok lower
termination_by upper - lower

/-- `CGraph.tail` (core.pyx l.583-620).  `none` is Python's `None`. -/
def CGraph.tail (c : CGraph) (edgeId : Int) : Except GErr (Option Nat) :=
  if edgeId < 0 ∨ edgeId ≥ c.numEdges then .error .edgeDoesNotExist else
  if edgeId ≥ c.numPX then
    if c.twoway then pure none else .error .assertion
  else do
    let t ← tailSearch c.headsIdxs edgeId 0 c.numNodes
    pure (some t)

/-- `CGraph.head` (core.pyx l.622-640). -/
def CGraph.head (c : CGraph) (edgeId : Int) : Except GErr Int :=
  if edgeId < 0 ∨ edgeId ≥ c.numEdges then .error .edgeDoesNotExist else do
  rd c.heads edgeId

/-- `CGraph.has_dangling_edges` (core.pyx l.347-348). -/
def CGraph.hasDanglingEdges (c : CGraph) : Bool :=
  ¬ (c.numEdges = c.numPX ∧ c.numPX = c.numXP)

/-- Inner loop of `EdgeIterator.__next__` (core.pyx l.307-308). -/
def advance (idxs : Mem) (edgeId : Int) (tail : Nat) : Except GErr Nat :=
  if h : tail + 1 < idxs.length then
    if edgeId ≥ idxs[tail + 1] then advance idxs edgeId (tail + 1) else .ok tail
  else .error .outOfBounds
termination_by idxs.length - tail

/-- `list(cgraph)`: `EdgeIterator` (core.pyx l.298-309, `__iter__` l.339-345), `remaining` steps before
`edge_id` reaches `num_edges`. -/
def iterGo (c : CGraph) : Nat → Nat → Nat → Except GErr (List (Int × Int))
  | 0, _, _ => .ok []
  | remaining + 1, edgeId, tail => do
    let t ← advance c.headsIdxs edgeId tail
    let h ← rd c.heads edgeId
    let rest ← iterGo c remaining (edgeId + 1) t
    pure (((t : Int), h) :: rest)

/-- `list(cgraph)`. -/
def CGraph.toList (c : CGraph) : Except GErr (List (Int × Int)) := iterGo c c.numEdges 0 0

/-! ### Pickling -/

/-- Result of `CGraph_malloc.__getstate__` (core.pyx l.709-724).  The numbers are computed with Python's
integers, hence `Int`. -/
structure Pickle where
  twoway : Bool
  edgeNrTranslation : Bool
  numNodes : Int
  numPP : Int
  numPN : Int
  numNP : Int
  headsIdxs : Mem
  heads : Mem
  tailsIdxs : Mem
  tails : Mem
  edgeIds : Mem
  byNr : Mem

/-- `CGraph_malloc.__getstate__` (core.pyx l.709-724). -/
def CGraph.getstate (c : CGraph) : Pickle :=
  let numNP : Int := (c.edgeNrEnd : Int) - c.numPX
  let numPP : Int := if c.twoway then (c.numXP : Int) - numNP else c.numXP
  let numPN : Int := (c.numPX : Int) - numPP
  { twoway := c.twoway, edgeNrTranslation := c.edgeNrTranslation, numNodes := c.numNodes
    numPP, numPN, numNP
    headsIdxs := c.headsIdxs, heads := c.heads, tailsIdxs := c.tailsIdxs, tails := c.tails
    edgeIds := c.edgeIds, byNr := c.byNr }

/-- `CGraph_malloc.__setstate__` (core.pyx l.726-735): allocate with the recomputed counts, then
`attribute[:] = value` for every array that is not `None`.  A negative count would make the allocation
fail (`.error .assertion` here); an array whose saved length differs from the allocated one would be
resized behind the back of the C pointer (`.error .outOfBounds` here). -/
def CGraph.setstate (junk : Nat → Int) (p : Pickle) : Except GErr CGraph :=
  if p.numNodes < 0 ∨ p.numPP < 0 ∨ p.numPN < 0 ∨ p.numNP < 0 then .error .assertion
  else
    let c := CGraph.init junk p.twoway p.edgeNrTranslation p.numNodes.toNat p.numPP.toNat
      p.numPN.toNat p.numNP.toNat
    if p.headsIdxs.length = c.headsIdxs.length ∧ p.heads.length = c.heads.length ∧
        (c.twoway → p.tailsIdxs.length = c.tailsIdxs.length ∧ p.tails.length = c.tails.length ∧
          p.edgeIds.length = c.edgeIds.length) ∧
        (c.edgeNrTranslation → p.byNr.length = c.byNr.length) then
      .ok { c with
        headsIdxs := p.headsIdxs
        heads := p.heads
        tailsIdxs := if c.twoway then p.tailsIdxs else c.tailsIdxs
        tails := if c.twoway then p.tails else c.tails
        edgeIds := if c.twoway then p.edgeIds else c.edgeIds
        byNr := if c.edgeNrTranslation then p.byNr else c.byNr }
    else .error .outOfBounds

end Kwant.Graph
