import Mathlib.Order.Defs.LinearOrder
import Verif.Graph.Model
import Verif.Builder.Model

/-!
Model of the finalization of builders: `_FinalizedBuilderMixin`, `FiniteSystem` and `InfiniteSystem`
(builder.py l.2032-2463).

Simplifications
* Sites are linearly ordered (the order of the tuples `(family, tag)`).  `sorted` is `List.mergeSort`.
* A user function is an element of `Fn`; `sig` is the outcome of `get_parameters` (`none`: `ValueError`),
  `call` calls it with positional arguments: first the sites, then further arguments.  Calling a
  `_Substituted` proxy passes the positional arguments on (l.752-753), so storing `value.func` together with
  `value.params` (l.2133-2134) is the same as storing the proxy.
* The identity-keyed cache `_value_params_pair_cache` (l.2128-2154) is a pure function of the value.
* `params` is an association list; an empty one and `None` are both false, as in the code.
* Local graphs and dictionaries are discarded on exceptions, so only the exception is reported.
* Warnings, discrete symmetries, and `site_ranges` (see `Final/SiteRanges.lean`) are left out here.
-/

namespace Kwant.Final
open Kwant Kwant.Assoc Kwant.Builder Kwant.Graph

/-- User-supplied functions. -/
structure Calls (S V Fn N A X : Type) where
  /-- `get_parameters`; `none`: `ValueError` -/
  sig : Fn → Option (List N)
  /-- positional call -/
  call : Fn → List S → List A → Except X V
  /-- a `HermConjOfFunc` called with one site (only a misuse leads to this) -/
  hermOnsite : Fn → S → List A → Except X V

/-- Exceptions of `hamiltonian`. -/
inductive HErr (X : Type) where
  | exclusive
  | signature
  | missing
  | user (x : X)
  | graph (e : GErr)
  | index
deriving DecidableEq

/-- Exceptions of finalization. -/
inductive FErr (S : Type) where
  | build (e : Err S)
  | graph (e : GErr)
  | value
  | index
deriving DecidableEq

/-- Entry of `onsites`: value together with the names of its parameters (builder.py l.2130-2151). -/
inductive OnEntry (V Fn N : Type) where
  | const (v : V)
  | func (f : Fn) (names : Option (List N))
  | herm (f : Fn) (names : Option (List N))

/-- Entry of `hoppings`. -/
inductive HopEntry (V Fn N : Type) where
  | const (v : V)
  | func (f : Fn) (names : Option (List N))
  | other

/-- Attributes of a finalized system (builder.py l.2262-2273, l.2442-2452). -/
structure Sys (S V Fn N : Type) where
  graph : CGraph
  sites : List S
  idBySite : List (S × ℕ)
  onsites : List (OnEntry V Fn N)
  hoppings : List (HopEntry V Fn N)
  parameters : Option (List N)

section
variable {S G V Fn N A X : Type} [DecidableEq S] [DecidableEq N] [AddCommGroup G] [DecidableEq G]
variable (sym : Symmetry S G) (hc : V → V) (C : Calls S V Fn N A X)

/-- `_value_params_pair_cache(1)` on the value of a site (builder.py l.2128-2154). -/
def onEntry : Val V Fn → OnEntry V Fn N
  | .const v => .const v
  | .func f => .func f ((C.sig f).map (List.drop 1))
  | .herm f => .herm f ((C.sig f).map (List.drop 1))

/-- `_value_params_pair_cache(2)` on the stored value of an edge (builder.py l.2128-2154). -/
def hopEntry : Stored V Fn → HopEntry V Fn N
  | .const v => .const v
  | .func f => .func f ((C.sig f).map (List.drop 2))
  | .other => .other

/-- The arguments passed to a value function (builder.py l.2056-2060, l.2084-2088), and the `TypeError` for
missing ones (l.2064-2068, l.2092-2096). -/
def argsFor (names : Option (List N)) (args : List A) (params : List (N × A)) : Except (HErr X) (List A) :=
  if params = [] then .ok args else
  match names with
  | none => .error .signature
  | some ns =>
    match ns.mapM (Assoc.get params) with
    | none => .error .missing
    | some as => .ok as

/-- Call of user code (builder.py l.2061-2069, l.2089-2097). -/
def userCall (r : Except X V) : Except (HErr X) V :=
  match r with
  | .ok v => .ok v
  | .error x => .error (.user x)

/-- `self.hoppings[self.graph.first_edge_id(i, j)]` (builder.py l.2073-2074). -/
def Sys.hopAt (sys : Sys S V Fn N) (i j : ℕ) : Except (HErr X) (HopEntry V Fn N) :=
  match sys.graph.firstEdgeId i j with
  | .error e => .error (.graph e)
  | .ok id =>
    match sys.hoppings[id.toNat]? with
    | some e => .ok e
    | none => .error .index

/-- The evaluation of an entry of `hoppings` at the sites `i`, `j` (builder.py l.2080-2097). -/
def Sys.evalHop (sys : Sys S V Fn N) (i j : ℕ) (e : HopEntry V Fn N) (args : List A) (params : List (N × A)) :
    Except (HErr X) V :=
  match e with
  | .const v => .ok v
  | .other => .error .index   -- a class cannot be called with arguments
  | .func f names =>
    match sys.sites[i]?, sys.sites[j]? with
    | some a, some b =>
      match argsFor names args params with
      | .error e => .error e
      | .ok as => userCall (C.call f [(sym.toFd2 a b).1, (sym.toFd2 a b).2] as)
    | _, _ => .error .index

/-- The evaluation of an entry of `onsites` (builder.py l.2053-2070). -/
def Sys.evalOnsite (sys : Sys S V Fn N) (i : ℕ) (e : OnEntry V Fn N) (args : List A) (params : List (N × A)) :
    Except (HErr X) V :=
  match e with
  | .const v => .ok v
  | .func f names =>
    match sys.sites[i]? with
    | none => .error .index
    | some s =>
      match argsFor names args params with
      | .error e => .error e
      | .ok as => userCall (C.call f [sym.toFd s] as)
  | .herm f names =>
    match sys.sites[i]? with
    | none => .error .index
    | some s =>
      match argsFor names args params with
      | .error e => .error e
      | .ok as => userCall (C.hermOnsite f (sym.toFd s) as)

/-- `_FinalizedBuilderMixin.hamiltonian` (builder.py l.2049-2100). -/
def Sys.hamiltonian (sys : Sys S V Fn N) (i j : ℕ) (args : List A) (params : List (N × A)) :
    Except (HErr X) V :=
  if args ≠ [] ∧ params ≠ [] then .error .exclusive else
  if i = j then
    match sys.onsites[i]? with
    | none => .error .index
    | some e => sys.evalOnsite sym C i e args params
  else
    match sys.hopAt i j with
    | .error e => .error e
    | .ok .other =>
      match sys.hopAt j i with
      | .error e => .error e
      | .ok e =>
        match sys.evalHop sym C j i e args params with
        | .error e => .error e
        | .ok v => .ok (hc v)
    | .ok e => sys.evalHop sym C i j e args params

/-- `for x in xs: ...` collecting results, stopping at the first exception. -/
def mapE {α β ε : Type} (f : α → Except ε β) : List α → Except ε (List β)
  | [] => .ok []
  | a :: l =>
    match f a with
    | .error e => .error e
    | .ok b =>
      match mapE f l with
      | .error e => .error e
      | .ok bs => .ok (b :: bs)

/-- `id_by_site` (builder.py l.2179-2181, l.2373-2375). -/
def idTable (sites : List S) : List (S × ℕ) := sites.zipIdx.foldl (fun t p => put t p.1 p.2) []

/-- `g.num_nodes = n`, then `g.add_edge` for each edge, then `g.compressed()` (builder.py l.2184-2192, l.2383-2406). -/
def mkGraph (junk : ℕ → ℤ) (n : ℕ) (es : List (ℤ × ℤ)) : Except (FErr S) CGraph :=
  match (Graph.new false).setNumNodes n with
  | (_, .error e) => .error (.graph e)
  | (g, .ok ()) =>
    match Graph.addEdges.go g es with
    | (_, .error e) => .error (.graph e)
    | (g, .ok ()) =>
      match g.compressed junk false false false with
      | .error e => .error (.graph e)
      | .ok c => .ok c

/-- `list(g)`. -/
def graphList (c : CGraph) : Except (FErr S) (List (ℤ × ℤ)) :=
  match c.toList with
  | .error e => .error (.graph e)
  | .ok l => .ok l

/-- `id_by_site[site]`. -/
def lookupId (t : List (S × ℕ)) (s : S) : Except (FErr S) ℕ :=
  match Assoc.get t s with
  | some i => .ok i
  | none => .error (.build (.keySite s))

/-- The edges of one tail (builder.py l.2187-2191). -/
def rowEdges (t : List (S × ℕ)) (tail : S) (heads : List S) : Except (FErr S) (List (ℤ × ℤ)) :=
  mapE (fun head =>
    match lookupId t tail with
    | .error e => .error e
    | .ok i =>
      match lookupId t head with
      | .error e => .error e
      | .ok j => .ok ((i : ℤ), (j : ℤ))) (heads.filter fun h => tail ≠ h)

/-- `builder._get_edge(tail, head)`, cached with its parameters (builder.py l.2244-2245, l.2409-2418). -/
def getEntry (H : HMap S V Fn) (tail head : S) : Except (FErr S) (HopEntry V Fn N) :=
  match getEdge H tail head with
  | .error e => .error (.build e)
  | .ok st => .ok (hopEntry C st)

/-- `sites[i]` for an integer out of the graph. -/
def siteAt (sites : List S) (i : ℤ) : Except (FErr S) S :=
  if 0 ≤ i then
    match sites[i.toNat]? with
    | some s => .ok s
    | none => .error .index
  else .error .index

/-- The names of an entry: `none` for a constant, `some none` for an exception (builder.py l.2247-2253). -/
def OnEntry.names : OnEntry V Fn N → Option (Option (List N))
  | .const _ => none
  | .func _ ns => some ns
  | .herm _ ns => some ns

/-- The names of an entry; `Other` is a class without parameters. -/
def HopEntry.names : HopEntry V Fn N → Option (Option (List N))
  | .const _ => none
  | .func _ ns => some ns
  | .other => some (some [])

/-- The union of the parameters (builder.py l.2254-2262, l.2420-2440). -/
def collectParams : List (Option (Option (List N))) → Option (List N)
  | [] => some []
  | none :: l => collectParams l
  | some none :: _ => none
  | some (some ns) :: l =>
    match collectParams l with
    | none => none
    | some r => some (ns ++ r)

end
section
variable {S G V Fn N A X : Type} [LinearOrder S] [DecidableEq N] [AddCommGroup G] [DecidableEq G]
variable (hc : V → V) (C : Calls S V Fn N A X)

/-- Python's `sorted`. -/
def pySorted (l : List S) : List S := l.mergeSort (fun a b => decide (a ≤ b))

/-- Entry of `onsites` (builder.py l.2242). -/
def onsiteAt (H : HMap S V Fn) (s : S) : Except (FErr S) (OnEntry V Fn N) :=
  match Assoc.get H s with
  | some row => .ok (onEntry C row.onsite)
  | none => .error (.build (.keySite s))

/-- Entry of `hoppings` (builder.py l.2244-2245). -/
def hopOf (H : HMap S V Fn) (sites : List S) (p : ℤ × ℤ) : Except (FErr S) (HopEntry V Fn N) :=
  match siteAt sites p.1, siteAt sites p.2 with
  | .ok a, .ok b => getEntry C H a b
  | .error e, _ => .error e
  | _, .error e => .error e

/-- `FiniteSystem.__init__` (builder.py l.2174-2273) without the leads. -/
def finalizeFinite (junk : ℕ → ℤ) (H : HMap S V Fn) : Except (FErr S) (Sys S V Fn N) :=
  let sites := pySorted (keys H)
  let table := idTable sites
  match mapE (fun p => rowEdges table p.1 (keys p.2.edges)) H with
  | .error e => .error e
  | .ok ess =>
    match mkGraph junk sites.length ess.flatten with
    | .error e => .error e
    | .ok g =>
      match mapE (onsiteAt C H) sites with
      | .error e => .error e
      | .ok onsites =>
        match graphList g with
        | .error e => .error e
        | .ok l =>
          match mapE (hopOf C H sites) l with
          | .error e => .error e
          | .ok hoppings =>
            .ok { graph := g, sites, idBySite := table, onsites, hoppings
                  parameters := collectParams (onsites.map OnEntry.names ++ hoppings.map HopEntry.names) }

/-- A lead as seen by the finalization of the system it is attached to: outcome of `lead.finalized()`, its
interface and its padding. -/
structure LeadData (S L : Type) where
  fin : Except (FErr S) L
  interface : List S
  padding : List S

/-- Connecting the leads (builder.py l.2194-2235): finalized leads, `lead_interfaces`, `lead_paddings`. -/
def connectLeads {L : Type} (table : List (S × ℕ)) (leads : List (LeadData S L)) :
    Except (FErr S) (List (L × List ℕ × List ℕ)) :=
  mapE (fun lead =>
    match lead.fin with
    | .error e => .error e
    | .ok l =>
      match mapE (lookupId table) lead.interface with
      | .error _ => .error .value
      | .ok ids => .ok (l, ids, lead.padding.filterMap (Assoc.get table))) leads

/-! ### Infinite systems: the symmetry has one direction, with group `ℤ` -/

/-- Does `tail` have a neighbour in the next domain? (builder.py l.2317-2322) -/
def linked (sym : Symmetry S ℤ) (row : Row S V Fn) : Bool :=
  (keys row.edges).any fun head => sym.which head == 1

/-- `lsites_with` (builder.py l.2313-2326). -/
def sitesWith (sym : Symmetry S ℤ) (H : HMap S V Fn) : List S :=
  (H.filter fun p => linked sym p.2).map Prod.fst

/-- `lsites_without` (builder.py l.2313-2326). -/
def sitesWithout (sym : Symmetry S ℤ) (H : HMap S V Fn) : List S :=
  (H.filter fun p => !linked sym p.2).map Prod.fst

/-- The loop over `interface_order` (builder.py l.2344-2366). Result: `lsites_with`, `interface`, and what is
left of the set. -/
def orderLoop (sym : Symmetry S ℤ) (shift : ℤ) : List S → List S → Except (FErr S) (List S × List S × List S)
  | [], set => .ok ([], [], set)
  | s :: rest, set =>
    let iface := sym.act shift s
    let lsite := sym.act 1 iface
    if lsite ∈ set then
      match orderLoop sym shift rest (set.erase lsite) with
      | .error e => .error e
      | .ok (ls, is, left) => .ok (lsite :: ls, iface :: is, left)
    else .error .value

/-- `shift` (builder.py l.2342-2343); not used if `interface_order` is empty. -/
def shiftOf (sym : Symmetry S ℤ) : List S → ℤ
  | [] => 0
  | s :: _ => -sym.which s - 1

/-- `lsites_with` and `interface` (builder.py l.2333-2371). -/
def interfaceOf (sym : Symmetry S ℤ) (withs : List S) (order : Option (List S)) :
    Except (FErr S) (List S × List S) :=
  match order with
  | none => .ok (withs, pySorted (withs.map (sym.act (-1))))
  | some ord =>
    match orderLoop sym (shiftOf sym ord) ord withs with
    | .error e => .error e
    | .ok (ls, is, left) =>
      if left ≠ [] then .error .value
      else if is ≠ pySorted is then .error .value
      else .ok (ls, is)

/-- The edges due to one neighbour of a site of the cell (builder.py l.2387-2405). -/
def cellHead (sym : Symmetry S ℤ) (table : List (S × ℕ)) (cell tailId : ℕ) (head : S) :
    Except (FErr S) (List (ℤ × ℤ)) :=
  match Assoc.get table head with
  | none => if sym.which head ≠ 1 then .error .value else .ok []
  | some h =>
    if h ≥ cell then .ok [((h : ℤ), (tailId : ℤ)), ((tailId : ℤ), (h : ℤ))]
    else .ok [((tailId : ℤ), (h : ℤ))]

/-- The edges of one site of the cell (builder.py l.2386-2405). -/
def cellEdges (sym : Symmetry S ℤ) (table : List (S × ℕ)) (cell tailId : ℕ) (heads : List S) :
    Except (FErr S) (List (ℤ × ℤ)) :=
  match mapE (cellHead sym table cell tailId) heads with
  | .error e => .error e
  | .ok l => .ok l.flatten

/-- One iteration of the loop over the sites of the cell (builder.py l.2384-2405). -/
def cellRow (sym : Symmetry S ℤ) (H : HMap S V Fn) (table : List (S × ℕ)) (cell : ℕ) (p : S × ℕ) :
    Except (FErr S) (OnEntry V Fn N × List (ℤ × ℤ)) :=
  match Assoc.get H p.1 with
  | none => .error (.build (.keySite p.1))
  | some row =>
    match cellEdges sym table cell p.2 (keys row.edges) with
    | .error e => .error e
    | .ok es => .ok (onEntry C row.onsite, es)

/-- Entry of `hoppings` (builder.py l.2411-2418). -/
def infHopOf (sym : Symmetry S ℤ) (H : HMap S V Fn) (sites : List S) (cell : ℕ) (p : ℤ × ℤ) :
    Except (FErr S) (HopEntry V Fn N) :=
  match siteAt sites p.1, siteAt sites p.2 with
  | .ok a, .ok b =>
    if p.1 ≥ (cell : ℤ) then getEntry C H (sym.toFd2 a b).1 (sym.toFd2 a b).2 else getEntry C H a b
  | .error e, _ => .error e
  | _, .error e => .error e

/-- `InfiniteSystem.__init__` (builder.py l.2300-2452). -/
def finalizeInfinite (sym : Symmetry S ℤ) (junk : ℕ → ℤ) (H : HMap S V Fn) (order : Option (List S)) :
    Except (FErr S) (Sys S V Fn N × ℕ) :=
  let without := sitesWithout sym H
  let cell := (sitesWith sym H).length + without.length
  match interfaceOf sym (sitesWith sym H) order with
  | .error e => .error e
  | .ok (withs, interface) =>
    let sites := pySorted withs ++ pySorted without ++ interface
    let table := idTable sites
    match mapE (cellRow C sym H table cell) (sites.take cell).zipIdx with
    | .error e => .error e
    | .ok rows =>
      let onsites := rows.map Prod.fst
      match mkGraph junk sites.length (rows.map Prod.snd).flatten with
      | .error e => .error e
      | .ok g =>
        match graphList g with
        | .error e => .error e
        | .ok l =>
          match mapE (infHopOf C sym H sites cell) l with
          | .error e => .error e
          | .ok hoppings =>
            .ok ({ graph := g, sites, idBySite := table, onsites, hoppings
                   parameters := collectParams (onsites.map OnEntry.names ++ hoppings.map HopEntry.names) }, cell)

/-- `InfiniteSystem.hamiltonian` (builder.py l.2455-2460). -/
def infHamiltonian (sym : Symmetry S ℤ) (sys : Sys S V Fn N) (cell : ℕ) (i j : ℕ) (args : List A)
    (params : List (N × A)) : Except (HErr X) V :=
  if i = j ∧ j ≥ cell then sys.hamiltonian sym hc C (i - cell) (j - cell) args params
  else sys.hamiltonian sym hc C i j args params

end
end Kwant.Final
